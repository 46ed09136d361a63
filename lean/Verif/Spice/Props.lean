import Verif.Spice.Lines

/-!
# C70: parsing a SPICE netlist gives the netlist that was written
-/

namespace Verif.Spice

open Verif.Schema

/-! ## Specification: netlists and what they mean -/

/-- An instance or the arguments of a declaration: name, words, assignments. -/
structure Card where
  name : List Char
  args : List Word
  params : List (List Char × Word)

inductive BodyLine where
  | inst (c : Card)
  | param (ps : List (List Char × Word))

inductive Item where
  | card (c : Card)
  | param (ps : List (List Char × Word))
  | model (name base : List Char) (ps : List (List Char × Word))
  /-- a subcircuit: its header, its lines, its constraints and the words after `.ENDS` -/
  | sub (head : Card) (body : List BodyLine) (consts : List (List Char)) (closing : List Word)

def upper (s : List Char) : List Char := s.map Char.toUpper

/-- The text kept for a word. -/
def Word.stored (showNum : ℚ → List Char) : Word → List Char
  | .name s => upper s
  | .num l u => showNum (l.value * (u.map Prod.snd).getD 1)
  | .expr _ t _ => upper t

def given (showNum : ℚ → List Char) (ps : List (List Char × Word)) : Dict := ps.map fun p => (upper p.1, p.2.stored showNum)

/-- A dictionary after assignments: known keys get the new values, other keys come after them. -/
def assign (d new : Dict) : Dict :=
  (d.map fun e => (e.1, (new.lookup e.1).getD e.2)) ++ new.filter fun e => decide (e.1 ∉ d.map Prod.fst)

/-- The instance of a model with the given nets and parameters. -/
structure Uses (m : Entry) (nets : List (List Char)) (ps : Dict) (i : Inst) : Prop where
  distinct : m.pins.Nodup
  count : nets.length = m.pins.length
  pre : m.pre <+: i.name
  keys : ∀ p ∈ ps, p.1 ∈ m.params.map Prod.fst
  model : i.model = m.name
  pins : i.pins = m.pins.zip nets
  params : i.params = m.params.map fun p => (p.1, (ps.lookup p.1).getD p.2)

/-- What a line with an instance means.  The last word is the model; for capacitors, resistors and inductors without parameters it is
the value. -/
inductive CardMeans (showNum : ℚ → List Char) (lib : List Entry) (c : Card) (i : Inst) : Prop where
  | device (m : Entry) (nets : List Word) (mod : List Char) : m ∈ lib → c.args = nets ++ [.name mod] → m.name = upper mod →
      (c.params ≠ [] ∨ ∀ x ∈ (upper c.name).head?, x ≠ 'C' ∧ x ≠ 'R' ∧ x ≠ 'L') → i.name = upper c.name →
      Uses m (nets.map (Word.stored showNum)) (given showNum c.params) i → CardMeans showNum lib c i
  | value (m : Entry) (nets : List Word) (w : Word) : m ∈ lib → c.args = nets ++ [w] → ¬ w.isName → c.params = [] →
      ((upper c.name).head? = some 'C' ∧ m.name = "CAP".toList ∨ (upper c.name).head? = some 'R' ∧ m.name = "RES".toList ∨
        (upper c.name).head? = some 'L' ∧ m.name = "IND".toList) → i.name = upper c.name →
      Uses m (nets.map (Word.stored showNum)) [("VALUE".toList, w.stored showNum)] i → CardMeans showNum lib c i

/-- The lines of a subcircuit: its parameters before, its instances, and its parameters after. -/
inductive BodyMeans (showNum : ℚ → List Char) (lib : List Entry) : List BodyLine → Dict → List Inst → Dict → Prop where
  | nil (d : Dict) : BodyMeans showNum lib [] d [] d
  | inst (c : Card) (i : Inst) (ls : List BodyLine) (d d' : Dict) (is : List Inst) : CardMeans showNum lib c i →
      BodyMeans showNum lib ls d is d' → BodyMeans showNum lib (.inst c :: ls) d (i :: is) d'
  | param (ps : List (List Char × Word)) (ls : List BodyLine) (d d' : Dict) (is : List Inst) :
      BodyMeans showNum lib ls (assign d (given showNum ps)) is d' → BodyMeans showNum lib (.param ps :: ls) d is d'

/-- Library, instances and parameters of the top level. -/
structure Design where
  lib : List Entry
  top : List Inst
  params : Dict

/-- What a netlist means, with the library and the instances read before: models and subcircuits are defined once, and before they
are used. -/
inductive Means (showNum : ℚ → List Char) : List Item → Design → Design → Prop where
  | nil (D : Design) : Means showNum [] D D
  | card (c : Card) (i : Inst) (its : List Item) (D D' : Design) : CardMeans showNum D.lib c i →
      Means showNum its { D with top := D.top ++ [i] } D' → Means showNum (.card c :: its) D D'
  | param (ps : List (List Char × Word)) (its : List Item) (D D' : Design) :
      Means showNum its { D with params := assign D.params (given showNum ps) } D' → Means showNum (.param ps :: its) D D'
  | model (n b : List Char) (ps : List (List Char × Word)) (e : Entry) (its : List Item) (D D' : Design) :
      upper n ∉ D.lib.map Entry.name → e ∈ D.lib → e.name = upper b →
      Means showNum its { D with lib := D.lib ++ [⟨upper n, e.pins, assign e.params (given showNum ps), e.pre, false, [], []⟩] } D' →
      Means showNum (.model n b ps :: its) D D'
  | sub (h : Card) (body : List BodyLine) (cs : List (List Char)) (cl : List Word) (is : List Inst) (d : Dict) (its : List Item)
      (D D' : Design) : upper h.name ∉ D.lib.map Entry.name → h.args ≠ [] → BodyMeans showNum D.lib body (given showNum h.params) is d →
      Means showNum its { D with lib := D.lib ++ [⟨upper h.name, h.args.map (Word.stored showNum), d, [], true, is, cs⟩] } D' →
      Means showNum (.sub h body cs cl :: its) D D'

/-! ## Specification: texts -/

/-- The words of a line can be read, and no parameter is given twice. -/
structure ArgsOK (expr : List Char → Option (List Char)) (args : List Word) (ps : List (List Char × Word)) : Prop where
  args : ∀ w ∈ args, w.WF expr
  params : ∀ p ∈ ps, NameOK p.1 ∧ p.2.WF expr
  distinct : (ps.map fun p => upper p.1).Nodup

/-- A line: its first word, words, assignments, and what ends it, followed by the text `rest`. -/
inductive LineText (expr : List Char → Option (List Char)) (rest head : List Char) (args : List Word) (ps : List (List Char × Word))
    (cs : List (List Char)) : List Char → Prop where
  | mk (a b e : List Char) : ArgsOK expr args ps → WordsText args a → ParamsText ps b → LineEnd rest cs e →
      LineText expr rest head args ps cs (head ++ (a ++ (b ++ e)))

/-- The lines of a subcircuit, with the constraints written after them. -/
inductive BodyText (expr : List Char → Option (List Char)) (rest : List Char) : List BodyLine → List (List Char) → List Char → Prop where
  | nil : BodyText expr rest [] [] []
  | inst (c : Card) (ls : List BodyLine) (cs cs' : List (List Char)) (l s : List Char) : NameOK c.name →
      LineText expr (s ++ rest) c.name c.args c.params cs l → BodyText expr rest ls cs' s →
      BodyText expr rest (.inst c :: ls) (cs ++ cs') (l ++ s)
  | param (kw : List Char) (ps : List (List Char × Word)) (ls : List BodyLine) (cs cs' : List (List Char)) (l s : List Char) :
      upper kw = ".PARAM".toList → LineText expr (s ++ rest) kw [] ps cs l → BodyText expr rest ls cs' s →
      BodyText expr rest (.param ps :: ls) (cs ++ cs') (l ++ s)

/-- The text of a netlist; keywords in any case. -/
inductive NetText (expr : List Char → Option (List Char)) : List Item → List Char → Prop where
  | nil : NetText expr [] []
  | card (c : Card) (its : List Item) (l s : List Char) : NameOK c.name → LineText expr s c.name c.args c.params [] l →
      NetText expr its s → NetText expr (.card c :: its) (l ++ s)
  | param (kw : List Char) (ps : List (List Char × Word)) (its : List Item) (l s : List Char) : upper kw = ".PARAM".toList →
      LineText expr s kw [] ps [] l → NetText expr its s → NetText expr (.param ps :: its) (l ++ s)
  | model (kw n b : List Char) (ps : List (List Char × Word)) (its : List Item) (l s : List Char) : upper kw = ".MODEL".toList →
      LineText expr s kw [.name n, .name b] ps [] l → NetText expr its s → NetText expr (.model n b ps :: its) (l ++ s)
  | sub (kw kw' : List Char) (h : Card) (body : List BodyLine) (cs cs' : List (List Char)) (cl : List Word) (its : List Item)
      (l m e s : List Char) : upper kw = ".SUBCKT".toList → upper kw' = ".ENDS".toList →
      LineText expr (m ++ (e ++ s)) kw (.name h.name :: h.args) h.params cs l → BodyText expr (e ++ s) body cs' m →
      LineText expr s kw' cl [] [] e → NetText expr its s → NetText expr (.sub h body (cs ++ cs') cl :: its) (l ++ (m ++ (e ++ s)))

/-- What may come before the first line: nothing, empty lines and comments, or a title. -/
inductive TitleText (rest : List Char) : List Char → Prop where
  | none : TitleText rest []
  | lines (s : List Char) : s ≠ [] → Eol rest [] s → TitleText rest s
  | title (t s : List Char) : Quiet t → Eol rest [] s → TitleText rest ('*' :: (t ++ s))

/-- The constraints of the subcircuits are accepted. -/
def ConstsOK (ok : List Char → Bool) (its : List Item) : Prop :=
  ∀ it ∈ its, ∀ h b cs cl, it = .sub h b cs cl → ∀ c ∈ cs, ok c = true

/-! ## Proofs -/

theorem str_val (E : Env) (w : Word) : E.str w.val = w.stored E.showNum := by
  cases w <;> rfl

theorem given_eq (E : Env) (ps : List (List Char × Word)) :
    (ps.map fun p => (up p.1, p.2.val)).map (fun p => (p.1, E.str p.2)) = given E.showNum ps := by
  rw [List.map_map]
  exact List.map_congr_left fun p _ => by simp only [Function.comp, str_val]; rfl

theorem given_keys {showNum : ℚ → List Char} {ps : List (List Char × Word)} (h : (ps.map fun p => upper p.1).Nodup) :
    ((given showNum ps).map Prod.fst).Nodup := by
  unfold given
  rw [List.map_map]
  exact h

theorem toUpper_cases (c : Char) : c.toUpper = c ∨ isId c = true ∧ isId c.toUpper = true ∧ c.toUpper ≠ '.' := by
  by_cases h : c.toNat ∈ List.range 123 ∧ 97 ≤ c.toNat
  · right
    have hc : c = Char.ofNat c.toNat := (Char.ofNat_toNat c).symm
    have key : ∀ n ∈ List.range 123, 97 ≤ n → isId (Char.ofNat n) = true ∧ isId (Char.ofNat n).toUpper = true ∧ (Char.ofNat n).toUpper ≠ '.' := by
      decide +kernel
    rw [hc]
    exact key _ h.1 h.2
  · left
    unfold Char.toUpper
    rw [dif_neg]
    rintro ⟨h1, h2⟩
    apply h
    simp only [ge_iff_le, UInt32.le_iff_toNat_le] at h1 h2
    constructor
    · rw [List.mem_range]
      have : c.toNat = c.val.toNat := rfl
      simp at h2
      omega
    · have : c.toNat = c.val.toNat := rfl
      simp at h1
      omega

/-- A keyword that is a declaration in upper case. -/
theorem decl_of {kw k : List Char} (h : upper kw = '.' :: k) (hne : k ≠ []) (hk : ∀ c ∈ k, isId c = true) :
    ∃ s, kw = '.' :: s ∧ s ≠ [] ∧ ∀ c ∈ s, isId c = true := by
  cases kw with
  | nil => simp [upper] at h
  | cons c s =>
    simp only [upper, List.map_cons, List.cons.injEq] at h
    refine ⟨s, ?_, ?_, ?_⟩
    · rcases toUpper_cases c with hc | hc
      · rw [← hc, h.1]
      · exact absurd h.1 hc.2.2
    · rintro rfl
      exact hne h.2.symm
    · intro x hx
      rcases toUpper_cases x with hc | hc
      · rw [← hc]
        exact hk _ (by rw [← h.2]; exact List.mem_map_of_mem hx)
      · exact hc.1

theorem val_name (s : List Char) : (Word.name s).val = .text (up s) := rfl

theorem lookup_cons' {d : Dict} {k : List Char} (e : List Char × List Char) :
    List.lookup k (e :: d) = if k = e.1 then some e.2 else d.lookup k := by
  rcases e with ⟨a, v⟩
  by_cases h : k = a
  · simp [List.lookup, h]
  · have : (k == a) = false := by simpa using h
    simp [List.lookup, h, this]

theorem lookup_none_of {d : Dict} {k : List Char} (h : k ∉ d.map Prod.fst) : d.lookup k = none := by
  induction d with
  | nil => rfl
  | cons e d ih =>
    simp only [List.map_cons, List.mem_cons, not_or] at h
    rw [lookup_cons', if_neg h.1, ih h.2]

theorem assign_eq (new d : Dict) (h : (new.map Prod.fst).Nodup) : new.foldl (fun d e => put d e.1 e.2) d = assign d new := by
  induction new generalizing d with
  | nil => simp [assign]
  | cons x new ih =>
    simp only [List.map_cons, List.nodup_cons] at h
    have hl := lookup_none_of h.1
    rw [List.foldl_cons, ih _ h.2]
    unfold put
    by_cases hx : x.1 ∈ d.map Prod.fst
    · rw [if_pos (by simpa using hx)]
      have hk : (d.map fun e => if e.1 = x.1 then (x.1, x.2) else e).map Prod.fst = d.map Prod.fst := by
        rw [List.map_map]
        exact List.map_congr_left fun e _ => by simp only [Function.comp]; split <;> simp_all
      unfold assign
      rw [hk, List.filter_cons, if_neg (by simpa using hx), List.map_map]
      congr 1
      apply List.map_congr_left
      intro e _
      simp only [Function.comp, lookup_cons']
      by_cases he : e.1 = x.1
      · simp [he, hl]
      · simp [he]
    · rw [if_neg (by simpa using hx)]
      unfold assign
      rw [List.filter_cons, if_pos (by simpa using hx)]
      simp only [List.map_append, List.map_cons, List.map_nil, hl, Option.getD_none, List.append_assoc, List.singleton_append]
      congr 1
      · apply List.map_congr_left
        intro e he
        have : e.1 ≠ x.1 := fun h' => hx (by rw [← h']; exact List.mem_map_of_mem he)
        simp [lookup_cons', this]
      · congr 1
        apply List.filter_congr
        intro e he
        have : e.1 ≠ x.1 := fun h' => h.1 (by rw [← h']; exact List.mem_map_of_mem he)
        simp [this]

theorem find_of {lib : List Entry} (hnd : (lib.map Entry.name).Nodup) {m : Entry} (hm : m ∈ lib) : find lib m.name = some m := by
  unfold find
  induction lib with
  | nil => simp at hm
  | cons e lib ih =>
    simp only [List.map_cons, List.nodup_cons] at hnd
    rcases List.mem_cons.1 hm with rfl | hm
    · simp
    · have : e.name ≠ m.name := fun h' => hnd.1 (by rw [h']; exact List.mem_map_of_mem hm)
      rw [List.find?_cons_of_neg (by simpa using this)]
      exact ih hnd.2 hm

theorem find_new {lib : List Entry} {n : List Char} (h : n ∉ lib.map Entry.name) : find lib n = none := by
  unfold find
  rw [List.find?_eq_none]
  intro e he
  simp only [decide_eq_true_eq]
  exact fun h' => h (by rw [← h']; exact List.mem_map_of_mem he)

theorem makeInst_of {m : Entry} {nets : List (List Char)} {ps : Dict} {i : Inst} (h : Uses m nets ps i) : makeInst i.name m nets ps = some i := by
  unfold makeInst
  have hk : (ps.all fun p => (m.params.map Prod.fst).contains p.1) = true := by
    rw [List.all_eq_true]
    intro p hp
    simpa using h.keys p hp
  rw [if_pos ⟨h.count, List.isPrefixOf_iff_prefix.2 h.pre, hk⟩, foldl_put]
  · have e1 := h.model
    have e2 := h.pins
    have e3 := h.params
    rcases i with ⟨a, b, c, d⟩
    simp only at e1 e2 e3 ⊢
    rw [e1, e2, e3]
    simp
  · rw [List.nil_append]
    have : (m.pins.zip nets).map Prod.fst = m.pins := by
      rw [List.map_fst_zip]
      rw [h.count]
    rw [this]
    exact h.distinct

theorem instStep_of (E : Env) {st : St} {c : Card} {i : Inst} {lib : List Entry} (hfind : ∀ m ∈ lib, find st.lib m.name = some m)
    (h : CardMeans E.showNum lib c i) :
    instStep E st (up c.name) (c.args.map Word.val) (c.params.map fun p => (up p.1, p.2.val)) = some (addInst st i) := by
  cases h with
  | device m nets mod hm hargs hmod hp hn hu =>
    have hmo : modelOf (up c.name) (c.args.map Word.val) (c.params.map fun p => (up p.1, p.2.val)) =
        some (.text (up mod), nets.map Word.val, c.params.map fun p => (up p.1, p.2.val)) := by
      unfold modelOf
      rw [hargs]
      simp only [List.map_append, List.map_cons, List.map_nil, List.getLast?_append, List.getLast?_singleton, Option.some_or,
        Option.map_some, List.dropLast_concat, val_name]
      have hne : c.params ≠ [] → (c.params.map fun p => (up p.1, p.2.val)) ≠ [] := fun h => by simpa using h
      rcases hp with hp | hp
      · split
        · rw [if_neg (hne hp)]
        · rfl
      · have : defaultModel (up c.name).head? = none := by
          unfold defaultModel
          split
          · rename_i he; exact absurd rfl (hp _ he).1
          · rename_i he; exact absurd rfl (hp _ he).2.1
          · rename_i he; exact absurd rfl (hp _ he).2.2
          · rfl
        rw [this]
    have hfm := hfind m hm
    rw [hmod] at hfm
    have hmi := makeInst_of hu
    rw [hn] at hmi
    unfold instStep
    rw [hmo, Option.bind_some]
    dsimp only
    rw [given_eq, List.map_map]
    have : (E.str ∘ Word.val) = Word.stored E.showNum := funext (str_val E)
    rw [this]
    change (match find st.lib (upper mod) with | some e => _ | none => _) = _
    rw [hfm]
    dsimp only
    change (makeInst (upper c.name) m _ _).map _ = _
    rw [hmi, Option.map_some]
  | value m nets w hm hargs hw hp hl hn hu =>
    have hmo : modelOf (up c.name) (c.args.map Word.val) (c.params.map fun p => (up p.1, p.2.val)) =
        some (.text m.name, nets.map Word.val, [("VALUE".toList, w.val)]) := by
      unfold modelOf
      rw [hargs, hp]
      simp only [List.map_append, List.map_cons, List.map_nil, List.getLast?_append, List.getLast?_singleton, Option.some_or,
        Option.map_some, List.dropLast_concat, if_true]
      have : defaultModel (up c.name).head? = some m.name := by
        change defaultModel (upper c.name).head? = _
        rcases hl with ⟨h1, h2⟩ | ⟨h1, h2⟩ | ⟨h1, h2⟩ <;> rw [h1, h2] <;> rfl
      rw [this]
    have hfm := hfind m hm
    have hmi := makeInst_of hu
    rw [hn] at hmi
    unfold instStep
    rw [hmo, Option.bind_some]
    dsimp only
    rw [List.map_map]
    have : (E.str ∘ Word.val) = Word.stored E.showNum := funext (str_val E)
    rw [this, hfm]
    dsimp only
    rw [List.map_cons, List.map_nil, str_val]
    change (makeInst (upper c.name) m _ _).map _ = _
    rw [hmi, Option.map_some]

/-- Reading one line. -/
theorem run_line {E : Env} (hE : ExprOK E.expr) {st st' : St} {b : Bool} {rest head : List Char} {args : List Word}
    {ps : List (List Char × Word)} {cs : List (List Char)} {l : List Char} {ty : Ty} (hty : ty = .name ∨ ty = .decl)
    (hhead : ∀ r, (∀ c ∈ r.head?, isId c = false) → lex E.expr b (head ++ r) = ⟨ty, head⟩ :: lex E.expr false r)
    (h : LineText E.expr rest head args ps cs l) (hrest : Good rest)
    (hd : ∀ x, x = (args.map Word.val, ps.map fun p => (up p.1, p.2.val)) → ∀ c, decompose c = some x → dispatch E st (⟨ty, head⟩ :: c) = some st')
    (hq : cs = [] ∨ st'.queue.isSome = true) :
    run E st [] (lex E.expr b (l ++ rest)) = run E (addQ st' cs) [] (lex E.expr false rest) := by
  cases h with
  | mk a p e hok ha hp he =>
    obtain ⟨hb, as, nl, h1, h2, h3⟩ := lex_lineEnd hE hrest he
    obtain ⟨qs, h4, h5⟩ := lex_params hE hp hok.params hb
    obtain ⟨ts, h6, h7⟩ := lex_words hE ha hok.args (params_atBlank hp hb)
    have hblank := words_atBlank ha (params_atBlank hp hb)
    rw [show head ++ (a ++ (p ++ e)) ++ rest = head ++ (a ++ (p ++ (e ++ rest))) by simp, hhead _ hblank.noId, h6, h4, h1]
    rw [show (⟨ty, head⟩ : Tok) :: (ts ++ (flat3 qs ++ (as ++ (nl ++ lex E.expr false rest)))) =
      ((⟨ty, head⟩ : Tok) :: (ts ++ flat3 qs)) ++ (as ++ (nl ++ lex E.expr false rest)) by simp]
    have hdec := decompose_line h7 h5 hok.distinct
    rw [run_cache, List.nil_append, run_end E (hd _ rfl _ hdec) h2 hq]
    · rcases h3 with ⟨h, hr⟩ | h
      · refine Or.inl ⟨h, ?_⟩
        rw [hr]
        exact lex_stop rfl
      · exact Or.inr h
    · intro t ht
      rcases List.mem_cons.1 ht with rfl | ht
      · rcases hty with rfl | rfl <;> simp
      · have hall : ∀ t ∈ ts ++ flat3 qs, t.ty = .name ∨ t.ty = .number ∨ t.ty = .expr ∨ t.ty = .equals := by
          unfold decompose at hdec
          split at hdec
          · rename_i hall
            intro t ht
            have := List.all_eq_true.1 hall t ht
            simp only [Bool.or_eq_true, decide_eq_true_eq] at this
            tauto
          · simp at hdec
        rcases hall t ht with h | h | h | h <;> simp [h]

theorem lex_kw {E : Env} (hE : ExprOK E.expr) {b : Bool} {kw k : List Char} (h : upper kw = '.' :: k) (hne : k ≠ [])
    (hk : ∀ c ∈ k, isId c = true) (r : List Char) (hr : ∀ c ∈ r.head?, isId c = false) :
    lex E.expr b (kw ++ r) = ⟨.decl, kw⟩ :: lex E.expr false r := by
  obtain ⟨s, rfl, hs, hid⟩ := decl_of h hne hk
  exact lex_decl hE hs hid hr

theorem good_kw {kw k : List Char} (h : upper kw = '.' :: k) (hne : k ≠ []) (hk : ∀ c ∈ k, isId c = true) (r : List Char) :
    Good (kw ++ r) := by
  obtain ⟨s, rfl, -, -⟩ := decl_of h hne hk
  exact good_decl _

theorem lineText_good {expr : List Char → Option (List Char)} {rest head : List Char} {args : List Word} {ps : List (List Char × Word)}
    {cs : List (List Char)} {l : List Char} (h : LineText expr rest head args ps cs l) (hg : ∀ r, Good (head ++ r)) (r : List Char) :
    Good (l ++ r) := by
  cases h with
  | mk a p e _ _ _ _ =>
    rw [List.append_assoc]
    exact hg _

theorem bodyText_good {expr : List Char → Option (List Char)} {rest : List Char} {ls : List BodyLine} {cs : List (List Char)} {s : List Char}
    (h : BodyText expr rest ls cs s) (hr : Good rest) : Good (s ++ rest) := by
  cases h with
  | nil => exact hr
  | inst c ls cs cs' l s hn hl hb =>
    rw [List.append_assoc]
    exact lineText_good hl (fun r => NameOK.fresh hn) _
  | param kw ps ls cs cs' l s hk hl hb =>
    rw [List.append_assoc]
    exact lineText_good hl (fun r => good_kw hk (by decide) (by decide) r) _

theorem netText_good {expr : List Char → Option (List Char)} {its : List Item} {s : List Char} (h : NetText expr its s) : Good s := by
  cases h with
  | nil => exact good_nil
  | card c its l s hn hl h => exact lineText_good hl (fun r => NameOK.fresh hn) _
  | param kw ps its l s hk hl h => exact lineText_good hl (fun r => good_kw hk (by decide) (by decide) r) _
  | model kw n b ps its l s hk hl h => exact lineText_good hl (fun r => good_kw hk (by decide) (by decide) r) _
  | sub kw kw' h body cs cs' cl its l m e s hk hk' hl hb he hn =>
    exact lineText_good hl (fun r => good_kw hk (by decide) (by decide) r) _

theorem map_other {lib : List Entry} {n : List Char} (h : n ∉ lib.map Entry.name) (f : Entry → Entry) :
    (lib.map fun e => if e.name = n then f e else e) = lib := by
  conv_rhs => rw [← List.map_id lib]
  apply List.map_congr_left
  intro e he
  rw [if_neg]
  · rfl
  · exact fun h' => h (by rw [← h']; exact List.mem_map_of_mem he)

/-- The state inside a subcircuit. -/
def inside (lib : List Entry) (top : List Inst) (tp : Dict) (n : List Char) (pins : List (List Char)) (d : Dict) (is : List Inst)
    (q : List (List Char)) : St :=
  ⟨lib ++ [⟨n, pins, d, [], true, is, []⟩], top, tp, [n], some q⟩

theorem addInst_inside {lib : List Entry} {n : List Char} (h : n ∉ lib.map Entry.name) (top : List Inst) (tp : Dict)
    (pins : List (List Char)) (d : Dict) (is : List Inst) (q : List (List Char)) (i : Inst) :
    addInst (inside lib top tp n pins d is q) i = inside lib top tp n pins d (is ++ [i]) q := by
  simp only [addInst, inside, List.map_append, map_other h, List.map_cons, List.map_nil, if_true]

theorem addQ_inside (lib : List Entry) (top : List Inst) (tp : Dict) (n : List Char) (pins : List (List Char)) (d : Dict) (is : List Inst)
    (q cs : List (List Char)) : addQ (inside lib top tp n pins d is q) cs = inside lib top tp n pins d is (q ++ cs) := rfl

theorem foldl_given (E : Env) {ps : List (List Char × Word)} (h : (ps.map fun p => upper p.1).Nodup) (d : Dict) :
    (ps.map fun p => (up p.1, p.2.val)).foldl (fun d p => put d p.1 (E.str p.2)) d = assign d (given E.showNum ps) := by
  rw [← assign_eq _ _ (given_keys h), ← given_eq, List.foldl_map, List.foldl_map, List.foldl_map]

theorem param_inside (E : Env) {lib : List Entry} {n : List Char} (h : n ∉ lib.map Entry.name) (top : List Inst) (tp : Dict)
    (pins : List (List Char)) (d : Dict) (is : List Inst) (q : List (List Char)) {ps : List (List Char × Word)}
    (hnd : (ps.map fun p => upper p.1).Nodup) :
    param E (inside lib top tp n pins d is q) (ps.map fun p => (up p.1, p.2.val)) =
      inside lib top tp n pins (assign d (given E.showNum ps)) is q := by
  simp only [param, inside, List.map_append, map_other h, List.map_cons, List.map_nil, if_true, foldl_given E hnd]

theorem dispatch_name {E : Env} {st : St} {h : List Char} {c : List Tok} {x : List Val × List (List Char × Val)} (hx : decompose c = some x) :
    dispatch E st (⟨.name, h⟩ :: c) = instStep E st (up h) x.1 x.2 := by
  simp [dispatch, hx]

theorem dispatch_param {E : Env} {st : St} {h : List Char} {c : List Tok} {x : List Val × List (List Char × Val)} (hx : decompose c = some x)
    (hk : upper h = ".PARAM".toList) (hx1 : x.1 = []) : dispatch E st (⟨.decl, h⟩ :: c) = some (param E st x.2) := by
  have : up h = ".PARAM".toList := hk
  simp only [dispatch, hx, Option.bind_some, if_true, this, hx1]
  rw [if_neg (by decide), if_neg (by decide)]

theorem dispatch_model {E : Env} {st : St} {h : List Char} {c : List Tok} {x : List Val × List (List Char × Val)} (hx : decompose c = some x)
    (hk : upper h = ".MODEL".toList) : dispatch E st (⟨.decl, h⟩ :: c) = model E st x.1 x.2 := by
  have : up h = ".MODEL".toList := hk
  simp only [dispatch, hx, Option.bind_some, if_true, this]
  rw [if_neg (by decide), if_neg (by decide), if_neg (by decide)]

theorem dispatch_sub {E : Env} {st : St} {h : List Char} {c : List Tok} {x : List Val × List (List Char × Val)} (hx : decompose c = some x)
    (hk : upper h = ".SUBCKT".toList) : dispatch E st (⟨.decl, h⟩ :: c) = subckt E st x.1 x.2 := by
  have : up h = ".SUBCKT".toList := hk
  simp only [dispatch, hx, Option.bind_some, if_true, this]

theorem dispatch_ends {E : Env} {st : St} {h : List Char} {c : List Tok} {x : List Val × List (List Char × Val)} (hx : decompose c = some x)
    (hk : upper h = ".ENDS".toList) : dispatch E st (⟨.decl, h⟩ :: c) = endSub E st := by
  have : up h = ".ENDS".toList := hk
  simp only [dispatch, hx, Option.bind_some, if_true, this]
  rw [if_neg (by decide)]

theorem lineText_distinct {expr : List Char → Option (List Char)} {rest head : List Char} {args : List Word}
    {ps : List (List Char × Word)} {cs : List (List Char)} {l : List Char} (h : LineText expr rest head args ps cs l) : ArgsOK expr args ps := by
  cases h with
  | mk a p e hok _ _ _ => exact hok

/-- Reading the lines of a subcircuit. -/
theorem run_body {E : Env} (hE : ExprOK E.expr) {rest : List Char} (hrest : Good rest) {lib : List Entry} {n : List Char}
    (hnd : (lib.map Entry.name).Nodup) (hn : n ∉ lib.map Entry.name) (top : List Inst) (tp : Dict) (pins : List (List Char))
    {ls : List BodyLine} {cs : List (List Char)} {s : List Char} (h : BodyText E.expr rest ls cs s) :
    ∀ {d d' : Dict} {is : List Inst} (pre : List Inst) (q : List (List Char)), BodyMeans E.showNum lib ls d is d' →
      run E (inside lib top tp n pins d pre q) [] (lex E.expr false (s ++ rest)) =
        run E (inside lib top tp n pins d' (pre ++ is) (q ++ cs)) [] (lex E.expr false rest) := by
  induction h with
  | nil =>
    intro d d' is pre q hm
    cases hm
    simp
  | inst c ls cs cs' l s hname hl hb ih =>
    intro d d' is pre q hm
    cases hm with
    | inst _ i _ _ _ is hc hm =>
      have hfind : ∀ m ∈ lib, find (inside lib top tp n pins d pre q).lib m.name = some m := by
        intro m hm
        have := find_of hnd hm
        unfold find at this ⊢
        simp only [inside, List.find?_append, this, Option.some_or]
      rw [List.append_assoc, run_line hE (ty := .name) (Or.inl rfl) (fun r hr => lex_name hE hname hr) hl (bodyText_good hb hrest)
        (st' := inside lib top tp n pins d (pre ++ [i]) q)]
      · rw [addQ_inside, ih _ _ hm]
        simp
      · rintro x rfl t ht
        rw [dispatch_name ht, instStep_of E hfind hc, addInst_inside hn]
      · exact Or.inr rfl
  | param kw ps ls cs cs' l s hk hl hb ih =>
    intro d d' is pre q hm
    cases hm with
    | param _ _ _ _ _ hm =>
      rw [List.append_assoc, run_line hE (ty := .decl) (Or.inr rfl) (fun r hr => lex_kw hE hk (by decide) (by decide) r hr) hl
        (bodyText_good hb hrest) (st' := inside lib top tp n pins (assign d (given E.showNum ps)) pre q)]
      · rw [addQ_inside, ih _ _ hm]
        simp
      · rintro x rfl t ht
        rw [dispatch_param ht hk rfl, param_inside E hn _ _ _ _ _ _ (lineText_distinct hl).distinct]
      · exact Or.inr rfl

/-- The state outside of subcircuits. -/
def outside (D : Design) : St := ⟨D.lib, D.top, D.params, [], none⟩

theorem addQ_outside (D : Design) (cs : List (List Char)) : addQ (outside D) cs = outside D := rfl

theorem run_net {E : Env} (hE : ExprOK E.expr) {its : List Item} {s : List Char} (h : NetText E.expr its s) :
    ∀ {D D' : Design} (b : Bool), (D.lib.map Entry.name).Nodup → ConstsOK E.okConst its → Means E.showNum its D D' →
      run E (outside D) [] (lex E.expr b s) = some (outside D') := by
  induction h with
  | nil =>
    intro D D' b _ _ hm
    cases hm
    rw [lex_stop rfl]
    rfl
  | card c its l s hname hl hs ih =>
    intro D D' b hnd hok hm
    cases hm with
    | card _ i _ _ _ hc hm =>
      rw [run_line hE (ty := .name) (Or.inl rfl) (fun r hr => lex_name hE hname hr) hl (netText_good hs)
        (st' := outside { D with top := D.top ++ [i] })]
      · rw [addQ_nil]
        exact ih false hnd (fun it hit => hok it (by simp [hit])) hm
      · rintro x rfl t ht
        rw [dispatch_name ht, instStep_of E (fun m hm => find_of hnd hm) hc]
        rfl
      · exact Or.inl rfl
  | param kw ps its l s hk hl hs ih =>
    intro D D' b hnd hok hm
    cases hm with
    | param _ _ _ _ hm =>
      rw [run_line hE (ty := .decl) (Or.inr rfl) (fun r hr => lex_kw hE hk (by decide) (by decide) r hr) hl (netText_good hs)
        (st' := outside { D with params := assign D.params (given E.showNum ps) })]
      · rw [addQ_nil]
        exact ih false hnd (fun it hit => hok it (by simp [hit])) hm
      · rintro x rfl t ht
        rw [dispatch_param ht hk rfl]
        simp only [param, outside, foldl_given E (lineText_distinct hl).distinct]
      · exact Or.inl rfl
  | model kw n bs ps its l s hk hl hs ih =>
    intro D D' b hnd hok hm
    cases hm with
    | model _ _ _ e _ _ _ hn he hb hm =>
      rw [run_line hE (ty := .decl) (Or.inr rfl) (fun r hr => lex_kw hE hk (by decide) (by decide) r hr) hl (netText_good hs)
        (st' := outside { D with lib := D.lib ++ [⟨upper n, e.pins, assign e.params (given E.showNum ps), e.pre, false, [], []⟩] })]
      · rw [addQ_nil]
        refine ih false ?_ (fun it hit => hok it (by simp [hit])) hm
        simp only [List.map_append, List.map_cons, List.map_nil]
        rw [List.nodup_append]
        exact ⟨hnd, by simp, by rintro a ha b' hb' rfl; simp only [List.mem_singleton] at hb'; exact hn (hb' ▸ ha)⟩
      · rintro x rfl t ht
        rw [dispatch_model ht hk]
        have hne : n ≠ [] := ((lineText_distinct hl).args (.name n) (by simp)).ne
        have hfe := find_of hnd he
        rw [hb] at hfe
        simp only [model, outside, List.map_cons, List.map_nil, val_name]
        change (if upper n = [] ∨ (find D.lib (upper n)).isSome = true then none else (find D.lib (upper bs)).map _) = _
        rw [if_neg, hfe, Option.map_some, foldl_given E (lineText_distinct hl).distinct]
        · rfl
        · rw [find_new hn]
          simpa [upper] using hne
      · exact Or.inl rfl
  | sub kw kw' h body cs cs' cl its l m e s hk hk' hl hb he hs ih =>
    intro D D' b hnd hok hm
    cases hm with
    | sub _ _ _ _ is d _ _ _ hn hports hbody hm =>
      have hge : Good (e ++ s) := lineText_good he (fun r => good_kw hk' (by decide) (by decide) r) _
      rw [run_line hE (ty := .decl) (Or.inr rfl) (fun r hr => lex_kw hE hk (by decide) (by decide) r hr) hl (bodyText_good hb hge)
        (st' := inside D.lib D.top D.params (upper h.name) (h.args.map (Word.stored E.showNum)) (given E.showNum h.params) [] [])]
      · rw [addQ_inside, run_body hE hge hnd hn _ _ _ hb _ _ hbody,
          run_line hE (ty := .decl) (Or.inr rfl) (fun r hr => lex_kw hE hk' (by decide) (by decide) r hr) he (netText_good hs)
          (st' := outside { D with lib := D.lib ++ [⟨upper h.name, h.args.map (Word.stored E.showNum), d, [], true, is, cs ++ cs'⟩] })]
        · rw [addQ_nil]
          refine ih false ?_ (fun it hit => hok it (by simp [hit])) hm
          simp only [List.map_append, List.map_cons, List.map_nil]
          rw [List.nodup_append]
          exact ⟨hnd, by simp, by rintro a ha b' hb' rfl; simp only [List.mem_singleton] at hb'; exact hn (hb' ▸ ha)⟩
        · rintro x rfl t ht
          rw [dispatch_ends ht hk']
          have hq : (cs ++ cs').all E.okConst = true := by
            rw [List.all_eq_true]
            intro c hc
            exact hok _ List.mem_cons_self h body _ cl rfl c hc
          simp only [endSub, inside, List.nil_append, Option.bind_some, hq, if_true, List.map_append, map_other hn, List.map_cons,
            List.map_nil]
          rfl
        · exact Or.inl rfl
      · rintro x rfl t ht
        rw [dispatch_sub ht hk]
        have hne : h.name ≠ [] := ((lineText_distinct hl).args (.name h.name) (by simp)).ne
        simp only [subckt, outside, List.map_cons, val_name]
        change (if h.args.map Word.val = [] ∨ upper h.name = [] ∨ (find D.lib (upper h.name)).isSome = true then none else _) = _
        rw [if_neg]
        · have : (E.str ∘ Word.val) = Word.stored E.showNum := funext (str_val E)
          rw [given_eq, List.map_map, this]
          rfl
        · rw [find_new hn]
          simp [upper, hne, hports]
      · exact Or.inr rfl

/-- **C70, netlists.**  A text made of subcircuits, models, parameters and instances, with continued lines, comments and constraints,
that means a design with distinct models and subcircuits defined before use, is read as exactly that design. -/
theorem C70_parse_partial {E : Env} (hE : ExprOK E.expr) {lib : List Entry} (hlib : (lib.map Entry.name).Nodup) {its : List Item}
    {D : Design} (hm : Means E.showNum its ⟨lib, [], []⟩ D) (hc : ConstsOK E.okConst its) {s t : List Char} (ht : NetText E.expr its s)
    (htitle : TitleText s t) : parse E lib (t ++ s) = some ⟨D.lib, D.top, D.params, [], none⟩ := by
  have hmain := fun b => run_net hE ht b hlib hc hm
  have hg := netText_good ht
  unfold parse
  change run E (outside ⟨lib, [], []⟩) [] _ = some (outside D)
  have heol : ∀ (r : List Char) (b : Bool), (b = false ∨ r ≠ []) → Eol s [] r →
      run E (outside ⟨lib, [], []⟩) [] (lex E.expr b (r ++ s)) = some (outside D) := by
    intro r b hb hr
    obtain ⟨as, nl, h1, h2, h3⟩ := lex_eol hE hg hr b hb
    rw [h1, run_end E (st' := outside ⟨lib, [], []⟩) rfl h2 (Or.inl rfl), addQ_nil]
    · exact hmain false
    · rcases h3 with ⟨h, hr⟩ | h
      · refine Or.inl ⟨h, ?_⟩
        rw [hr]
        exact lex_stop rfl
      · exact Or.inr h
  cases htitle with
  | none => exact hmain true
  | lines r hne hr => exact heol _ _ (Or.inr hne) hr
  | title q r hq hr =>
    have := step_title (expr := E.expr) hq (eol_ended hg hr)
    rw [show '*' :: (q ++ r) ++ s = '*' :: (q ++ (r ++ s)) by simp, lex_step hE this]
    exact heol _ _ (Or.inl rfl) hr

end Verif.Spice

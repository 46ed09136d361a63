import Mathlib.Data.List.Basic

/-!
# C131, C132: GDS records written as JSON with indents

`align/gdsconv/gds2prettyjson.py`: `convert_GDS_GDSprettyjson` 31-92, `show_data` 14-26. The same loop is in `align/gdsconv/txt2prettyjson.py` 35-112.

Simplifications: the text is a list of tokens, without spaces and ends of lines; the colon is part of the key; the text of numbers is a parameter
(a token `val`). The levels are natural numbers and there is no last one (the code has room for 256, and 6 are used).
-/

namespace Verif.Pretty

/-! ## The code -/

/-- What is written. -/
inductive Tok where
  | lb | rb | ls | rs | comma
  | key (s : String)
  | str (s : String)
  | val (v : String)
  deriving DecidableEq

/-- A record: an element, ENDEL, ENDSTR or ENDLIB, another one without data, BGNLIB or BGNSTR, another one with data (54-87). -/
inductive Rec where
  | elem (kind : String)
  | fin (tag : String)
  | other
  | bgn (tag : String) (d : String)
  | fld (tag : String) (d : String)

/-- `level`, `levelTag`, `first` and what has been written. -/
structure St where
  level : Nat
  tag : Nat → String
  first : Bool
  out : List Tok

def upd (f : Nat → String) (n : Nat) (s : String) : Nat → String := fun m => if m = n then s else f m

/-- `indentPrint` (41-45). -/
def emit (first : Bool) (out ts : List Tok) : List Tok := out ++ (if first then [] else [Tok.comma]) ++ ts

/-- The list is begun if there is none at this level (56-60, 77-81). -/
def opened (σ : St) (t k : String) : St :=
  if σ.tag σ.level = "" then ⟨σ.level + 1, upd σ.tag (σ.level + 1) t, true, emit σ.first σ.out [.key k, .ls]⟩ else σ

/-- One round of the loop (52-88). -/
def step (σ : St) : Rec → St
  | .elem k => let τ := opened σ k "elements"
    ⟨τ.level + 1, τ.tag, false, emit true (emit τ.first τ.out [.lb]) [.key "type", .str k.toLower]⟩
  | .fin t =>
    if σ.tag σ.level ≠ "" then
      ⟨σ.level - 1 - 1, upd σ.tag σ.level "", false, emit true σ.out [.rs] ++ (if t ≠ σ.tag σ.level then emit true [] [.rb] else [])⟩
    else ⟨σ.level - 1, σ.tag, false, emit true σ.out [.rb]⟩
  | .other => { σ with first := false }
  | .bgn t d => let τ := opened σ t t.toLower
    ⟨τ.level + 1, τ.tag, false, emit true (emit τ.first τ.out [.lb]) [.key "time", .val d]⟩
  | .fld t d => { σ with first := false, out := emit σ.first σ.out [.key t.toLower, .val d] }

def run (rs : List Rec) (σ : St) : St := rs.foldl step σ

/-- The whole conversion (50-92). -/
def convert (rs : List Rec) : List Tok :=
  let σ := run rs ⟨0, fun _ => "", true, [.lb]⟩
  σ.out ++ (if σ.tag σ.level ≠ "" then [.rs] else []) ++ [.rb]

/-- `isElement` (30). -/
def elements : List String := ["BOUNDARY", "PATH", "SREF", "AREF", "TEXT", "NODE", "BOX"]

/-- `show_data` for text (18). -/
def showText (s : List Char) : List Char := '"' :: (s ++ ['"'])

/-! ## What the properties say -/

/-- Items with commas between them. -/
def commas : List (List Tok) → List Tok
  | [] => []
  | [x] => x
  | x :: y :: l => x ++ .comma :: commas (y :: l)

/-- A JSON object with its members, a JSON array. -/
def obj (ms : List (String × List Tok)) : List Tok := .lb :: (commas (ms.map fun m => .key m.1 :: m.2) ++ [.rb])
def arr (xs : List (List Tok)) : List Tok := .ls :: (commas xs ++ [.rs])

/-- A stream of records: some with data, libraries of cells, cells of elements. -/
structure Elem where
  kind : String
  fields : List (String × String)
structure Cell where
  time : String
  fields : List (String × String)
  elems : List Elem
structure Lib where
  time : String
  fields : List (String × String)
  cells : List Cell
structure File where
  fields : List (String × String)
  libs : List Lib

def fieldRecs (l : List (String × String)) : List Rec := l.map fun f => .fld f.1 f.2
def Elem.recs (e : Elem) : List Rec := .elem e.kind :: (fieldRecs e.fields ++ [.fin "ENDEL"])
def Cell.recs (c : Cell) : List Rec := .bgn "BGNSTR" c.time :: (fieldRecs c.fields ++ c.elems.flatMap Elem.recs ++ [.fin "ENDSTR"])
def Lib.recs (l : Lib) : List Rec := .bgn "BGNLIB" l.time :: (fieldRecs l.fields ++ l.cells.flatMap Cell.recs ++ [.fin "ENDLIB"])
def File.recs (f : File) : List Rec := fieldRecs f.fields ++ f.libs.flatMap Lib.recs

def members (l : List (String × String)) : List (String × List Tok) := l.map fun f => (f.1.toLower, [.val f.2])
/-- A member with a list, if the list is not empty. -/
def listMember (k : String) (xs : List (List Tok)) : List (String × List Tok) := if xs = [] then [] else [(k, arr xs)]

/-- The JSON text that says the same. -/
def Elem.json (e : Elem) : List Tok := obj (("type", [.str e.kind.toLower]) :: members e.fields)
def Cell.json (c : Cell) : List Tok := obj (("time", [.val c.time]) :: (members c.fields ++ listMember "elements" (c.elems.map Elem.json)))
def Lib.json (l : Lib) : List Tok := obj (("time", [.val l.time]) :: (members l.fields ++ listMember "bgnstr" (l.cells.map Cell.json)))
def File.json (f : File) : List Tok := obj (members f.fields ++ listMember "bgnlib" (f.libs.map Lib.json))

/-- The elements are those of GDS. -/
def Known (f : File) : Prop := ∀ l ∈ f.libs, ∀ c ∈ l.cells, ∀ e ∈ c.elems, e.kind ∈ elements

/-- How a JSON reader reads the rest of a string after its quote: the characters up to the closing quote, and what comes after it. Escapes of one character
only. -/
def readRest : List Char → Option (List Char × List Char)
  | [] => none
  | '"' :: l => some ([], l)
  | '\\' :: '"' :: l => (readRest l).map fun r => ('"' :: r.1, r.2)
  | '\\' :: '\\' :: l => (readRest l).map fun r => ('\\' :: r.1, r.2)
  | '\\' :: 'n' :: l => (readRest l).map fun r => ('\n' :: r.1, r.2)
  | '\\' :: 't' :: l => (readRest l).map fun r => ('\t' :: r.1, r.2)
  | '\\' :: _ => none
  | c :: l => if c.toNat < 32 then none else (readRest l).map fun r => (c :: r.1, r.2)

/-- A text that is a JSON string, and nothing more, is read. -/
def readText : List Char → Option (List Char)
  | '"' :: l => (readRest l).bind fun r => if r.2 = [] then some r.1 else none
  | _ => none

/-! ## Proofs -/

theorem run_append (a b : List Rec) (σ : St) : run (a ++ b) σ = run b (run a σ) := List.foldl_append

theorem run_cons (a : Rec) (b : List Rec) (σ : St) : run (a :: b) σ = run b (step σ a) := rfl

/-- All items after a first one. -/
def more (xs : List (List Tok)) : List Tok := xs.flatMap fun x => .comma :: x

theorem commas_cons (x : List Tok) (l : List (List Tok)) : commas (x :: l) = x ++ more l := by
  induction l generalizing x with
  | nil => simp [commas, more]
  | cons y l ih =>
    rw [commas, ih y]
    simp [more]

theorem more_append (a b : List (List Tok)) : more (a ++ b) = more a ++ more b := by
  unfold more
  exact List.flatMap_append

def memToks (ms : List (String × List Tok)) : List (List Tok) := ms.map fun m => .key m.1 :: m.2

theorem obj_cons (m : String × List Tok) (ms : List (String × List Tok)) : obj (m :: ms) = .lb :: .key m.1 :: (m.2 ++ more (memToks ms) ++ [.rb]) := by
  unfold obj memToks
  rw [List.map_cons, commas_cons]
  simp

theorem fields_run (l : List (String × String)) (n : Nat) (f : Nat → String) (o : List Tok) :
    run (fieldRecs l) ⟨n, f, false, o⟩ = ⟨n, f, false, o ++ more (memToks (members l))⟩ := by
  induction l generalizing o with
  | nil => simp [run, fieldRecs, more, memToks, members]
  | cons a l ih =>
    have : run (fieldRecs (a :: l)) ⟨n, f, false, o⟩ = run (fieldRecs l) ⟨n, f, false, emit false o [.key a.1.toLower, .val a.2]⟩ := rfl
    rw [this, ih]
    simp [emit, more, memToks, members]

/-- Members at the start of an object. -/
theorem fields_first (l : List (String × String)) (n : Nat) (f : Nat → String) (o : List Tok) :
    run (fieldRecs l) ⟨n, f, true, o⟩ = ⟨n, f, l.isEmpty, o ++ commas (memToks (members l))⟩ := by
  cases l with
  | nil => simp [run, fieldRecs, memToks, members, commas]
  | cons a l =>
    have : run (fieldRecs (a :: l)) ⟨n, f, true, o⟩ = run (fieldRecs l) ⟨n, f, false, emit true o [.key a.1.toLower, .val a.2]⟩ := rfl
    rw [this, fields_run]
    have h : memToks (members (a :: l)) = (.key a.1.toLower :: [.val a.2]) :: memToks (members l) := rfl
    rw [h, commas_cons]
    simp [emit]

/-- Nothing is open above this level. -/
def Clean (f : Nat → String) (n : Nat) : Prop := ∀ m, n < m → f m = ""

/-- The records `r` write the item `j` of a list. -/
def Item (r : List Rec) (j : List Tok) : Prop := ∀ (n : Nat) (f : Nat → String) (b : Bool) (o : List Tok), f n ≠ "" → Clean f n →
  run r ⟨n, f, b, o⟩ = ⟨n, f, false, emit b o j⟩

/-- The records `r` begin a list if there is none. -/
def Opens (r : List Rec) (t k : String) : Prop := t ≠ "" ∧ ∀ σ : St, run r σ = run r (opened σ t k)

theorem items_run {α : Type} {R : α → List Rec} {J : α → List Tok} : ∀ {xs : List α}, (∀ x ∈ xs, Item (R x) (J x)) →
    ∀ (n : Nat) (f : Nat → String) (o : List Tok), f n ≠ "" → Clean f n → run (xs.flatMap R) ⟨n, f, false, o⟩ = ⟨n, f, false, o ++ more (xs.map J)⟩
  | [], _, n, f, o, _, _ => by simp [run, more]
  | x :: xs, h, n, f, o, h1, h2 => by
    rw [List.flatMap_cons, run_append, h x List.mem_cons_self n f false o h1 h2, items_run (fun y hy => h y (List.mem_cons_of_mem _ hy)) n f _ h1 h2]
    simp [emit, more]

/-- A whole list, with its key but without the closing bracket. -/
theorem list_run {α : Type} {R : α → List Rec} {J : α → List Tok} {T : α → String} {k : String} {x : α} {xs : List α}
    (h : ∀ y ∈ x :: xs, Item (R y) (J y)) (ho : Opens (R x) (T x) k) {n : Nat} {f : Nat → String} (b : Bool) (o : List Tok) (h1 : f n = "") (h2 : Clean f n) :
    run ((x :: xs).flatMap R) ⟨n, f, b, o⟩
      = ⟨n + 1, upd f (n + 1) (T x), false, emit b o (.key k :: .ls :: commas ((x :: xs).map J))⟩ := by
  have hf : upd f (n + 1) (T x) (n + 1) ≠ "" := by unfold upd; rw [if_pos rfl]; exact ho.1
  have hc : Clean (upd f (n + 1) (T x)) (n + 1) := fun m hm => by
    unfold upd
    rw [if_neg (by omega)]
    exact h2 m (by omega)
  rw [List.flatMap_cons, run_append, ho.2]
  unfold opened
  rw [if_pos h1]
  rw [h x List.mem_cons_self _ _ _ _ hf hc, items_run (fun y hy => h y (List.mem_cons_of_mem _ hy)) _ _ _ hf hc, List.map_cons, commas_cons]
  simp [emit]

theorem opens_elem (e : Elem) (h : e.kind ∈ elements) : Opens e.recs e.kind "elements" := by
  have hk : e.kind ≠ "" := fun he => by rw [he] at h; revert h; decide
  refine ⟨hk, fun σ => ?_⟩
  unfold Elem.recs
  rw [run_cons, run_cons]
  congr 1
  unfold step
  have : opened (opened σ e.kind "elements") e.kind "elements" = opened σ e.kind "elements" := by
    by_cases h0 : σ.tag σ.level = ""
    · have h1 : opened σ e.kind "elements" = ⟨σ.level + 1, upd σ.tag (σ.level + 1) e.kind, true, emit σ.first σ.out [.key "elements", .ls]⟩ := by unfold opened; rw [if_pos h0]
      rw [h1]
      unfold opened
      rw [if_neg]
      simp only [upd, if_true]
      exact hk
    · have h1 : opened σ e.kind "elements" = σ := by unfold opened; rw [if_neg h0]
      rw [h1, h1]
  simp only [this]

theorem opens_bgn (t d : String) (r : List Rec) (ht : t ≠ "") : Opens (.bgn t d :: r) t t.toLower := by
  refine ⟨ht, fun σ => ?_⟩
  rw [run_cons, run_cons]
  congr 1
  unfold step
  have : opened (opened σ t t.toLower) t t.toLower = opened σ t t.toLower := by
    by_cases h0 : σ.tag σ.level = ""
    · have h1 : opened σ t t.toLower = ⟨σ.level + 1, upd σ.tag (σ.level + 1) t, true, emit σ.first σ.out [.key t.toLower, .ls]⟩ := by unfold opened; rw [if_pos h0]
      rw [h1]
      unfold opened
      rw [if_neg]
      simp only [upd, if_true]
      exact ht
    · have h1 : opened σ t t.toLower = σ := by unfold opened; rw [if_neg h0]
      rw [h1, h1]
  simp only [this]

theorem item_elem (e : Elem) : Item e.recs e.json := by
  intro n f b o h1 h2
  unfold Elem.recs
  rw [run_cons, run_append]
  have hs : step ⟨n, f, b, o⟩ (.elem e.kind) = ⟨n + 1, f, false, emit b o [.lb, .key "type", .str e.kind.toLower]⟩ := by
    unfold step opened
    simp only [if_neg h1]
    simp [emit]
  rw [hs, fields_run]
  have hn : f (n + 1) = "" := h2 _ (by omega)
  simp only [run, List.foldl_cons, List.foldl_nil, step, hn, ne_eq, not_true_eq_false, if_false, Nat.add_sub_cancel]
  unfold Elem.json
  rw [obj_cons]
  simp [emit]

theorem upd_back (f : Nat → String) (n : Nat) (s : String) (h : f n = "") : upd (upd f n s) n "" = f := by
  funext m
  unfold upd
  by_cases hm : m = n
  · rw [if_pos hm, hm, h]
  · rw [if_neg hm, if_neg hm]

/-- An item with a list of items in it. -/
theorem item_nest {α : Type} {R : α → List Rec} {J : α → List Tok} {T : α → String} {k t d e : String} {fs : List (String × String)} {xs : List α}
    (h : ∀ y ∈ xs, Item (R y) (J y) ∧ Opens (R y) (T y) k ∧ e ≠ T y) :
    Item (.bgn t d :: (fieldRecs fs ++ xs.flatMap R ++ [.fin e])) (obj (("time", [.val d]) :: (members fs ++ listMember k (xs.map J)))) := by
  intro n f b o h1 h2
  rw [run_cons, run_append, run_append]
  have hs : step ⟨n, f, b, o⟩ (.bgn t d) = ⟨n + 1, f, false, emit b o [.lb, .key "time", .val d]⟩ := by
    unfold step opened
    simp only [if_neg h1]
    simp [emit]
  rw [hs, fields_run]
  have hn : f (n + 1) = "" := h2 _ (by omega)
  have hc : Clean f (n + 1) := fun m hm => h2 m (by omega)
  rw [obj_cons]
  cases xs with
  | nil =>
    simp only [List.flatMap_nil, run, List.foldl_cons, List.foldl_nil, step, hn, ne_eq, not_true_eq_false, if_false, Nat.add_sub_cancel]
    simp [emit, listMember, memToks]
  | cons x xs =>
    obtain ⟨_, hx2, hx3⟩ := h x List.mem_cons_self
    rw [list_run (fun y hy => (h y hy).1) hx2 false _ hn hc]
    have hf : upd f (n + 1 + 1) (T x) (n + 1 + 1) = T x := by unfold upd; rw [if_pos rfl]
    simp only [run, List.foldl_cons, List.foldl_nil, step, hf]
    rw [if_pos hx2.1, if_pos hx3, upd_back f (n + 1 + 1) (T x) (h2 _ (by omega))]
    have hm : memToks (members fs ++ listMember k ((x :: xs).map J)) = memToks (members fs) ++ [.key k :: arr ((x :: xs).map J)] := by
      simp [memToks, listMember]
    rw [hm, more_append]
    simp [emit, more, arr]

theorem low_str : ("BGNSTR" : String).toLower = "bgnstr" := by decide +kernel
theorem low_lib : ("BGNLIB" : String).toLower = "bgnlib" := by decide +kernel

theorem item_cell (c : Cell) (h : ∀ e ∈ c.elems, e.kind ∈ elements) : Item c.recs c.json :=
  item_nest (T := Elem.kind) fun e he => ⟨item_elem e, opens_elem e (h e he), fun hk => by
    have := h e he
    rw [← hk] at this
    revert this
    decide⟩

theorem item_lib (l : Lib) (h : ∀ c ∈ l.cells, ∀ e ∈ c.elems, e.kind ∈ elements) : Item l.recs l.json :=
  item_nest (T := fun _ => "BGNSTR") fun c hc => ⟨item_cell c (h c hc), low_str ▸ opens_bgn "BGNSTR" _ _ (by decide), by decide⟩

/-! ## The theorems -/

/-- C131: a stream of records of libraries, cells and elements is written as the JSON text with the same nesting. -/
theorem C131_json (f : File) (h : Known f) : convert f.recs = f.json := by
  unfold convert File.recs
  rw [run_append, fields_first]
  unfold File.json obj
  cases hl : f.libs with
  | nil =>
    simp [run, listMember, memToks]
  | cons x xs =>
    have hall : ∀ y ∈ x :: xs, Item y.recs y.json := fun y hy => item_lib y (h y (by rw [hl]; exact hy))
    have := list_run (T := fun _ => "BGNLIB") (k := "bgnlib") hall (low_lib ▸ opens_bgn "BGNLIB" _ _ (by decide)) (n := 0) (f := fun _ => "") f.fields.isEmpty
      (Tok.lb :: commas (memToks (members f.fields))) rfl (fun _ _ => rfl)
    simp only [List.singleton_append] at this ⊢
    simp only [this]
    have hu : upd (fun _ => "") (0 + 1) "BGNLIB" (0 + 1) = "BGNLIB" := rfl
    have hne : ("BGNLIB" : String) ≠ "" := by decide
    simp only [hu, if_pos hne]
    have hm : (members f.fields ++ listMember "bgnlib" ((x :: xs).map Lib.json)).map (fun m => Tok.key m.1 :: m.2)
        = memToks (members f.fields) ++ [.key "bgnlib" :: arr ((x :: xs).map Lib.json)] := by
      simp [memToks, listMember]
    rw [hm]
    cases hfs : f.fields with
    | nil => simp [members, memToks, commas, emit, arr]
    | cons a as =>
      have h1 : memToks (members (a :: as)) = (.key a.1.toLower :: [.val a.2]) :: memToks (members as) := rfl
      rw [h1, List.cons_append, commas_cons, commas_cons, more_append]
      simp [emit, more, arr]

/-- A library with a cell with two elements, a cell without elements. -/
def exFile : File := ⟨[("HEADER", "600")], [⟨"t", [("LIBNAME", "L")], [⟨"t", [("STRNAME", "A")], [⟨"BOUNDARY", [("LAYER", "1"), ("XY", "[0]")]⟩, ⟨"TEXT", []⟩]⟩,
  ⟨"t", [("STRNAME", "B")], []⟩]⟩]⟩
example : Known exFile := by
  intro l hl c hc e he
  simp only [exFile, List.mem_cons, List.not_mem_nil, or_false] at hl
  subst hl
  simp only [List.mem_cons, List.not_mem_nil, or_false] at hc
  rcases hc with rfl | rfl
  · simp only [List.mem_cons, List.not_mem_nil, or_false] at he
    rcases he with rfl | rfl <;> decide
  · simp at he

theorem readRest_plain : ∀ (s l : List Char), (∀ c ∈ s, c ≠ '"' ∧ c ≠ '\\' ∧ 32 ≤ c.toNat) → readRest (s ++ '"' :: l) = some (s, l)
  | [], l, _ => rfl
  | c :: s, l, h => by
    obtain ⟨h1, h2, h3⟩ := h c List.mem_cons_self
    have ih := readRest_plain s l fun x hx => h x (List.mem_cons_of_mem _ hx)
    rw [List.cons_append, readRest, ih]
    · rw [if_neg (by omega)]
      rfl
    · exact h1
    all_goals intros; exact h2 ‹_›

/-- C132, for texts without quotes, backslashes and control characters: the written text is read back. -/
theorem C132_text_partial (s : List Char) (h : ∀ c ∈ s, c ≠ '"' ∧ c ≠ '\\' ∧ 32 ≤ c.toNat) : readText (showText s) = some s := by
  unfold showText
  have : readText ('"' :: (s ++ ['"'])) = (readRest (s ++ ['"'])).bind fun r => if r.2 = [] then some r.1 else none := rfl
  rw [this, readRest_plain s [] h]
  rfl

example : ∀ c ∈ "M1 <0>".toList, c ≠ '"' ∧ c ≠ '\\' ∧ 32 ≤ c.toNat := by decide

/-- C132 does not hold: nothing is escaped (the code has a note that it should be). -/
theorem C132_violated : readText (showText ['a', '"', 'b']) = none ∧ readText (showText ['a', '\\', 'n']) = some ['a', '\n'] := by decide

end Verif.Pretty

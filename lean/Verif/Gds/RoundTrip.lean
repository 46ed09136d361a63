import Verif.Gds.Text

/-! # C52: the round trip -/

namespace Verif.Gds

section
variable {R : Type}

/-! ## Lines -/

theorem readLines_step {l : Str} (h : OneLine l) (acc rest : Str) :
    readLines acc (l ++ '\n' :: rest) = (acc ++ l) :: readLines [] rest := by
  induction l generalizing acc with
  | nil => simp [readLines]
  | cons c l ih =>
    have hc : c ≠ '\n' ∧ c ≠ '\r' :=
      ⟨fun e => h.1 (e ▸ List.mem_cons_self), fun e => h.2 (e ▸ List.mem_cons_self)⟩
    have hl : OneLine l := ⟨fun e => h.1 (List.mem_cons_of_mem _ e), fun e => h.2 (List.mem_cons_of_mem _ e)⟩
    rw [List.cons_append, readLines, if_neg (by simp [hc]), ih hl]
    · simp
    · intro r he; exact fun _ => hc.2 he

theorem readLines_toFile {ls : List Str} (h : ∀ l ∈ ls, OneLine l) : readLines [] (toFile ls) = ls := by
  induction ls with
  | nil => simp [toFile, readLines]
  | cons l ls ih =>
    have : toFile (l :: ls) = l ++ '\n' :: toFile ls := by simp [toFile]
    rw [this, readLines_step (h l List.mem_cons_self), ih fun x hx => h x (List.mem_cons_of_mem _ hx)]
    simp

/-- Text that begins and ends with no white space. -/
structure Trim (s : Str) : Prop where
  first : ∀ c, s.head? = some c → isSpace c = false
  last : ∀ c, s.getLast? = some c → isSpace c = false
  ne : s ≠ []

theorem trim_plain {s : Str} (h : ∀ c ∈ s, isSpace c = false) (hn : s ≠ []) : Trim s :=
  ⟨fun c hc => h c (List.mem_of_mem_head? hc), fun c hc => h c (List.mem_of_mem_getLast? hc), hn⟩

theorem trim_showInt (i : Int) : Trim (showInt i) :=
  trim_plain (fun c hc => (showInt_plain i c hc).2.1) (showInt_ne_nil i)

theorem trim_quote (s : Str) : Trim (quote s) := by
  refine ⟨?_, ?_, by simp [quote]⟩
  · intro c hc
    simp only [quote, List.head?_cons, Option.some.injEq] at hc
    subst hc; decide
  · intro c hc
    have : quote s = ('"' :: s) ++ ['"'] := by simp [quote]
    rw [this, List.getLast?_concat] at hc
    simp only [Option.some.injEq] at hc
    subst hc; decide

theorem trim_showList {l : List Str} (hne : l ≠ []) (h : ∀ s ∈ l, Trim s) : Trim (showList l) := by
  cases l with
  | nil => exact absurd rfl hne
  | cons a rest =>
    have ha := h a List.mem_cons_self
    refine ⟨?_, ?_, by simp [showList, ha.ne]⟩
    · intro c hc
      unfold showList at hc
      simp only [List.head?_append] at hc
      cases a with
      | nil => exact absurd rfl ha.ne
      | cons x a => exact ha.first c (by simpa using hc)
    · intro c hc
      unfold showList at hc
      simp only at hc
      rcases List.eq_nil_or_concat rest with rfl | ⟨rs, b, rfl⟩
      · exact ha.last c (by simpa using hc)
      · have hb := h b (by simp)
        have e : a ++ ((rs ++ [b]).flatMap fun s => ',' :: ' ' :: s) =
            (a ++ (rs.flatMap fun s => ',' :: ' ' :: s) ++ [',', ' ']) ++ b := by simp
        rw [List.concat_eq_append, e, List.getLast?_append_of_ne_nil _ hb.ne] at hc
        exact hb.last c hc

/-- The tag and the rest of a printed line. -/
theorem splitTag_line {tag : String} {T arg : Str} (htag : tag.toList = T ++ [':']) (hT : Trim T) (hc : ':' ∉ T)
    (ha : Trim arg) : splitTag (strip (line tag arg)) = some (T, some arg) := by
  have hl : line tag arg = T ++ ':' :: ' ' :: arg := by simp [line, htag]
  have hs : strip (line tag arg) = line tag arg := by
    apply strip_id
    · intro c h
      rw [hl, List.head?_append] at h
      cases T with
      | nil => exact absurd rfl hT.ne
      | cons x T => exact hT.first c (by simpa using h)
    · intro c h
      have : T ++ ':' :: ' ' :: arg = (T ++ [':', ' ']) ++ arg := by simp
      rw [hl, this, List.getLast?_append_of_ne_nil _ ha.ne] at h
      exact ha.last c h
  rw [hs, hl]
  have hp : ∀ x ∈ T, decide (x ≠ ':') = true := by
    intro x hx
    simp only [decide_eq_true_eq]
    rintro rfl; exact hc hx
  have h1 : (T ++ ':' :: ' ' :: arg).takeWhile (· ≠ ':') = T := by
    rw [List.takeWhile_append_of_pos hp, List.takeWhile_cons_of_neg (by simp)]
    simp
  have h2 : (T ++ ':' :: ' ' :: arg).dropWhile (· ≠ ':') = ':' :: ' ' :: arg := by
    rw [List.dropWhile_append_of_pos hp, List.dropWhile_cons_of_neg (by simp)]
  have h3 : (' ' :: arg).dropWhile isSpace = arg := by
    rw [List.dropWhile_cons_of_pos (by decide)]
    cases hx : arg with
    | nil => rfl
    | cons x t => rw [List.dropWhile_cons_of_neg (by simp [ha.first x (by rw [hx]; rfl)])]
  unfold splitTag
  rw [h1, if_neg hT.ne, h2]
  simp only [h3]

/-- One line with a value in the innermost dictionary. -/
theorem stepLine_line {io : RealIO R} {st : List (Frame R)} {tag : String} {T arg : Str}
    {e : String × TagType × String} (htag : tag.toList = T ++ [':']) (hT : Trim T) (hc : ':' ∉ T)
    (he : lookupTag T = some e) (ha : Trim arg) : stepLine io st (line tag arg) = stepTag io e (some arg) st := by
  unfold stepLine
  rw [splitTag_line htag hT hc ha]
  simp only [Option.bind_some, he]

theorem trim_dec {T : Str} (h : (T ≠ [] ∧ T.all fun c => !isSpace c) := by decide) : Trim T :=
  trim_plain (fun c hc => by simpa using List.all_eq_true.mp h.2 c hc) h.1

/-! ## Values -/

theorem readData_int {io : RealIO R} (i : Int) : readData io .int (showInt i) = some (.int i) := by
  unfold readData
  simp only
  rw [splitComma_plain (no_comma_showInt i), if_neg (by simp), (readInt_showInt i).1]; rfl

theorem readData_bits {io : RealIO R} (i : Int) : readData io .bits (showInt i) = some (.int i) := by
  unfold readData
  simp only
  rw [(readInt_showInt i).1]; rfl

theorem readData_ints {io : RealIO R} {l : List Int} (h : Many l) :
    readData io .int (showInts l) = some (.ints l) := by
  obtain ⟨h1, h2⟩ := read_list (read := readInt) (fun i => (readInt_showInt i).1) (fun i => (readInt_showInt i).2)
    no_comma_showInt h
  unfold readData showInts
  simp only
  rw [if_pos h1, h2]; rfl

theorem readData_ascii {io : RealIO R} (s : Str) : readData io .ascii (quote s) = some (.str s) := by
  simp [readData, quote]

theorem no_comma_shw {io : RealIO R} (hio : io.Exact) (r : R) : ',' ∉ io.shw r :=
  fun h => (hio.plain r _ h).1 rfl

theorem readData_real {io : RealIO R} (hio : io.Exact) (r : R) : readData io .real8 (io.shw r) = some (.real r) := by
  unfold readData
  simp only
  rw [splitComma_plain (no_comma_shw hio r), if_neg (by simp), hio.read_shw]; rfl

theorem readData_reals {io : RealIO R} (hio : io.Exact) {l : List R} (h : Many l) :
    readData io .real8 (showList (l.map io.shw)) = some (.reals l) := by
  obtain ⟨h1, h2⟩ := read_list (read := io.read) hio.read_shw hio.read_space (no_comma_shw hio) h
  unfold readData
  simp only
  rw [if_pos h1, h2]; rfl

theorem trim_shw {io : RealIO R} (hio : io.Exact) (r : R) : Trim (io.shw r) :=
  trim_plain (fun c hc => (hio.plain r c hc).2) (hio.nonempty r)

theorem trim_showInts {l : List Int} (h : Many l) : Trim (showInts l) := by
  apply trim_showList
  · intro e
    have : l = [] := by simpa using e
    subst this; simp [Many] at h
  · intro s hs
    obtain ⟨i, _, rfl⟩ := List.mem_map.mp hs
    exact trim_showInt i

theorem trim_showReals {io : RealIO R} (hio : io.Exact) {l : List R} (h : Many l) :
    Trim (showList (l.map io.shw)) := by
  apply trim_showList
  · intro e
    have : l = [] := by simpa using e
    subst this; simp [Many] at h
  · intro s hs
    obtain ⟨i, _, rfl⟩ := List.mem_map.mp hs
    exact trim_shw hio i

/-! ## One entry -/

theorem setKey_fresh {l : List (String × J R)} {k : String} (v : J R) (h : (l.any fun e => e.1 == k) = false) :
    setKey l k v = l ++ [(k, v)] := by
  unfold setKey
  rw [if_neg (by simp [h])]

/-- A tag that only assigns an entry. -/
def Plain (e : String × TagType × String) : Prop :=
  isElement e.1 = false ∧ ¬(e.1 = "BGNLIB" ∨ e.1 = "BGNSTR") ∧ e.2.1 ≠ .nodata

instance (e) : Decidable (Plain e) := by unfold Plain; infer_instance

theorem stepTag_plain {io : RealIO R} {e : String × TagType × String} (he : Plain e) {arg : Str} {v : J R}
    (hv : readData io e.2.1 arg = some v) {es : List (String × J R)} {rest : List (Frame R)}
    (hk : (es.any fun x => x.1 == e.2.2) = false) :
    stepTag io e (some arg) (.dict es :: rest) = some (.dict (es ++ [(e.2.2, v)]) :: rest) := by
  unfold stepTag
  rw [if_neg (by simp [he.1]), if_neg he.2.1, if_pos he.2.2]
  simp only [Option.bind_some, hv, assign]
  rw [setKey_fresh v hk]

/-- An optional entry. -/
theorem step_prt {io : RealIO R} {α : Type} {tag : String} {f : α → Str} {g : α → J R} {o : Option α} {T : Str}
    {e : String × TagType × String} (htag : tag.toList = T ++ [':']) (hT : Trim T) (hc : ':' ∉ T)
    (he : lookupTag T = some e) (hp : Plain e) (htrim : ∀ a, o = some a → Trim (f a))
    (hv : ∀ a, o = some a → readData io e.2.1 (f a) = some (g a)) {es : List (String × J R)}
    {rest : List (Frame R)} (hk : (es.any fun x => x.1 == e.2.2) = false) :
    (prt tag f o).foldlM (stepLine io) (.dict es :: rest) = some (.dict (es ++ ent e.2.2 g o) :: rest) := by
  cases o with
  | none => simp [prt, ent]
  | some a =>
    have : stepLine io (.dict es :: rest) (line tag (f a)) = some (.dict (es ++ [(e.2.2, g a)]) :: rest) := by
      rw [stepLine_line htag hT hc he (htrim a rfl), stepTag_plain hp (hv a rfl) hk]
    simp [prt, ent, this]

theorem any_ent {α : Type} {k k' : String} (g : α → J R) (o : Option α) (h : (k == k') = false) :
    ((ent k g o).any fun x => x.1 == k') = false := by
  cases o with
  | none => rfl
  | some a => simp only [ent, List.any_cons, List.any_nil, Bool.or_false]; exact h

theorem foldlM_app {s : Type} {α : Type} {f : s → α → Option s} {a b : List α} {x y : s}
    (h : a.foldlM f x = some y) : (a ++ b).foldlM f x = b.foldlM f y := by
  rw [List.foldlM_append, h]; rfl

/-! ## Words without values -/

/-- A new object under `key` goes to the list `items`. -/
def Opens (key : String) (st : List (Frame R)) (k : String) (items : List (J R)) (r : List (Frame R)) : Prop :=
  ∀ es, openD key es st = some (.dict es :: .list k items :: r)

theorem opens_dict (key : String) (ds : List (String × J R)) (r : List (Frame R)) :
    Opens key (.dict ds :: r) key [] (.dict ds :: r) := fun _ => rfl

theorem opens_list (key k : String) (items : List (J R)) (r : List (Frame R)) :
    Opens key (.list k items :: r) k items r := fun _ => rfl

/-- A sequence of objects, each printed by `P`, becomes a list. -/
theorem step_many {io : RealIO R} {α : Type} {P : α → List Str} {toJ : α → J R} {key : String} {l : List α}
    (hP : ∀ a ∈ l, ∀ st k items r, Opens key st k items r →
      (P a).foldlM (stepLine io) st = some (.list k (items ++ [toJ a]) :: r)) (hne : l ≠ [])
    {st : List (Frame R)} {k : String} {items : List (J R)} {r : List (Frame R)} (ho : Opens key st k items r) :
    (l.flatMap P).foldlM (stepLine io) st = some (.list k (items ++ l.map toJ) :: r) := by
  induction l generalizing st items with
  | nil => exact absurd rfl hne
  | cons a l ih =>
    rw [List.flatMap_cons, foldlM_app (hP a List.mem_cons_self st k items r ho)]
    by_cases hl : l = []
    · subst hl; simp
    · rw [ih (fun b hb => hP b (List.mem_cons_of_mem _ hb)) hl (opens_list key k _ r)]
      simp

theorem stepLine_word {io : RealIO R} {st : List (Frame R)} {l : Str} {e : String × TagType × String}
    (hs : splitTag (strip l) = some (l, none)) (he : lookupTag l = some e) :
    stepLine io st l = stepTag io e none st := by
  unfold stepLine
  rw [hs]
  simp only [Option.bind_some, he]

theorem step_boundary {io : RealIO R} {st : List (Frame R)} :
    stepLine io st "BOUNDARY".toList = openD "elements" [("type", .str "boundary".toList)] st := by
  rw [stepLine_word (e := ("BOUNDARY", .nodata, "boundary")) (by decide +kernel) (by decide +kernel)]
  rfl

theorem step_text {io : RealIO R} {st : List (Frame R)} :
    stepLine io st "TEXT".toList = openD "elements" [("type", .str "text".toList)] st := by
  rw [stepLine_word (e := ("TEXT", .nodata, "text")) (by decide +kernel) (by decide +kernel)]
  rfl

theorem step_sref {io : RealIO R} {st : List (Frame R)} :
    stepLine io st "SREF".toList = openD "elements" [("type", .str "sref".toList)] st := by
  rw [stepLine_word (e := ("SREF", .nodata, "sref")) (by decide +kernel) (by decide +kernel)]
  rfl

theorem step_endel {io : RealIO R} {st : List (Frame R)} : stepLine io st "ENDEL".toList = closeD st := by
  rw [stepLine_word (e := ("ENDEL", .nodata, "endel")) (by decide +kernel) (by decide +kernel)]
  rfl

theorem step_endstr {io : RealIO R} {st : List (Frame R)} : stepLine io st "ENDSTR".toList = closeD st := by
  rw [stepLine_word (e := ("ENDSTR", .nodata, "endstr")) (by decide +kernel) (by decide +kernel)]
  rfl

theorem step_endlib {io : RealIO R} {st : List (Frame R)} : stepLine io st "ENDLIB".toList = closeD st := by
  rw [stepLine_word (e := ("ENDLIB", .nodata, "endlib")) (by decide +kernel) (by decide +kernel)]
  rfl

/-! ## Entries by their tags -/

section entries
variable {io : RealIO R} {es : List (String × J R)} {rest : List (Frame R)}

theorem prt_layer (o : Option Int) (hk : (es.any fun x => x.1 == "layer") = false) :
    (prt "LAYER:" showInt o).foldlM (stepLine io) (.dict es :: rest) =
      some (.dict (es ++ ent "layer" .int o) :: rest) :=
  step_prt (T := "LAYER".toList) (e := ("LAYER", .int, "layer")) (by decide +kernel) (trim_dec (by decide +kernel))
    (by decide +kernel) (by decide +kernel) (by decide +kernel) (fun a _ => trim_showInt a)
    (fun a _ => readData_int a) hk

theorem prt_datatype (o : Option Int) (hk : (es.any fun x => x.1 == "datatype") = false) :
    (prt "DATATYPE:" showInt o).foldlM (stepLine io) (.dict es :: rest) =
      some (.dict (es ++ ent "datatype" .int o) :: rest) :=
  step_prt (T := "DATATYPE".toList) (e := ("DATATYPE", .int, "datatype")) (by decide +kernel) (trim_dec (by decide +kernel))
    (by decide +kernel) (by decide +kernel) (by decide +kernel) (fun a _ => trim_showInt a)
    (fun a _ => readData_int a) hk

theorem prt_texttype (o : Option Int) (hk : (es.any fun x => x.1 == "texttype") = false) :
    (prt "TEXTTYPE:" showInt o).foldlM (stepLine io) (.dict es :: rest) =
      some (.dict (es ++ ent "texttype" .int o) :: rest) :=
  step_prt (T := "TEXTTYPE".toList) (e := ("TEXTTYPE", .int, "texttype")) (by decide +kernel) (trim_dec (by decide +kernel))
    (by decide +kernel) (by decide +kernel) (by decide +kernel) (fun a _ => trim_showInt a)
    (fun a _ => readData_int a) hk

theorem prt_propattr (o : Option Int) (hk : (es.any fun x => x.1 == "propattr") = false) :
    (prt "PROPATTR:" showInt o).foldlM (stepLine io) (.dict es :: rest) =
      some (.dict (es ++ ent "propattr" .int o) :: rest) :=
  step_prt (T := "PROPATTR".toList) (e := ("PROPATTR", .int, "propattr")) (by decide +kernel) (trim_dec (by decide +kernel))
    (by decide +kernel) (by decide +kernel) (by decide +kernel) (fun a _ => trim_showInt a)
    (fun a _ => readData_int a) hk

theorem prt_header (o : Option Int) (hk : (es.any fun x => x.1 == "header") = false) :
    (prt "HEADER:" showInt o).foldlM (stepLine io) (.dict es :: rest) =
      some (.dict (es ++ ent "header" .int o) :: rest) :=
  step_prt (T := "HEADER".toList) (e := ("HEADER", .int, "header")) (by decide +kernel) (trim_dec (by decide +kernel))
    (by decide +kernel) (by decide +kernel) (by decide +kernel) (fun a _ => trim_showInt a)
    (fun a _ => readData_int a) hk

theorem prt_presentation (o : Option Int) (hk : (es.any fun x => x.1 == "presentation") = false) :
    (prt "PRESENTATION:" showInt o).foldlM (stepLine io) (.dict es :: rest) =
      some (.dict (es ++ ent "presentation" .int o) :: rest) :=
  step_prt (T := "PRESENTATION".toList) (e := ("PRESENTATION", .bits, "presentation")) (by decide +kernel)
    (trim_dec (by decide +kernel)) (by decide +kernel) (by decide +kernel) (by decide +kernel)
    (fun a _ => trim_showInt a) (fun a _ => readData_bits a) hk

theorem prt_strans (o : Option Int) (hk : (es.any fun x => x.1 == "strans") = false) :
    (prt "STRANS:" showInt o).foldlM (stepLine io) (.dict es :: rest) =
      some (.dict (es ++ ent "strans" .int o) :: rest) :=
  step_prt (T := "STRANS".toList) (e := ("STRANS", .bits, "strans")) (by decide +kernel)
    (trim_dec (by decide +kernel)) (by decide +kernel) (by decide +kernel) (by decide +kernel)
    (fun a _ => trim_showInt a) (fun a _ => readData_bits a) hk

theorem prt_xy (o : Option (List Int)) (hm : ∀ l, o = some l → Many l)
    (hk : (es.any fun x => x.1 == "xy") = false) :
    (prt "XY:" showInts o).foldlM (stepLine io) (.dict es :: rest) =
      some (.dict (es ++ ent "xy" .ints o) :: rest) :=
  step_prt (T := "XY".toList) (e := ("XY", .int, "xy")) (by decide +kernel)
    (trim_dec (by decide +kernel)) (by decide +kernel) (by decide +kernel) (by decide +kernel)
    (fun a h => trim_showInts (hm a h)) (fun a h => readData_ints (hm a h)) hk

theorem prt_mag (hio : io.Exact) (o : Option R) (hk : (es.any fun x => x.1 == "mag") = false) :
    (prt "MAG:" io.shw o).foldlM (stepLine io) (.dict es :: rest) =
      some (.dict (es ++ ent "mag" .real o) :: rest) :=
  step_prt (T := "MAG".toList) (e := ("MAG", .real8, "mag")) (by decide +kernel)
    (trim_dec (by decide +kernel)) (by decide +kernel) (by decide +kernel) (by decide +kernel)
    (fun a _ => trim_shw hio a) (fun a _ => readData_real hio a) hk

theorem prt_angle (hio : io.Exact) (o : Option R) (hk : (es.any fun x => x.1 == "angle") = false) :
    (prt "ANGLE:" io.shw o).foldlM (stepLine io) (.dict es :: rest) =
      some (.dict (es ++ ent "angle" .real o) :: rest) :=
  step_prt (T := "ANGLE".toList) (e := ("ANGLE", .real8, "angle")) (by decide +kernel)
    (trim_dec (by decide +kernel)) (by decide +kernel) (by decide +kernel) (by decide +kernel)
    (fun a _ => trim_shw hio a) (fun a _ => readData_real hio a) hk

theorem prt_units (hio : io.Exact) (o : Option (List R)) (hm : ∀ l, o = some l → Many l)
    (hk : (es.any fun x => x.1 == "units") = false) :
    (prt "UNITS:" (fun l : List R => showList (l.map io.shw)) o).foldlM (stepLine io) (.dict es :: rest) =
      some (.dict (es ++ ent "units" .reals o) :: rest) :=
  step_prt (T := "UNITS".toList) (e := ("UNITS", .real8, "units")) (by decide +kernel)
    (trim_dec (by decide +kernel)) (by decide +kernel) (by decide +kernel) (by decide +kernel)
    (fun a h => trim_showReals hio (hm a h)) (fun a h => readData_reals hio (hm a h)) hk

theorem prt_string (o : Option Str) (hk : (es.any fun x => x.1 == "string") = false) :
    (prt "STRING:" quote o).foldlM (stepLine io) (.dict es :: rest) =
      some (.dict (es ++ ent "string" .str o) :: rest) :=
  step_prt (T := "STRING".toList) (e := ("STRING", .ascii, "string")) (by decide +kernel)
    (trim_dec (by decide +kernel)) (by decide +kernel) (by decide +kernel) (by decide +kernel)
    (fun a _ => trim_quote a) (fun a _ => readData_ascii a) hk

theorem prt_propvalue (o : Option Str) (hk : (es.any fun x => x.1 == "propvalue") = false) :
    (prt "PROPVALUE:" quote o).foldlM (stepLine io) (.dict es :: rest) =
      some (.dict (es ++ ent "propvalue" .str o) :: rest) :=
  step_prt (T := "PROPVALUE".toList) (e := ("PROPVALUE", .ascii, "propvalue")) (by decide +kernel)
    (trim_dec (by decide +kernel)) (by decide +kernel) (by decide +kernel) (by decide +kernel)
    (fun a _ => trim_quote a) (fun a _ => readData_ascii a) hk

theorem prt_sname (o : Option Str) (hk : (es.any fun x => x.1 == "sname") = false) :
    (prt "SNAME:" quote o).foldlM (stepLine io) (.dict es :: rest) =
      some (.dict (es ++ ent "sname" .str o) :: rest) :=
  step_prt (T := "SNAME".toList) (e := ("SNAME", .ascii, "sname")) (by decide +kernel)
    (trim_dec (by decide +kernel)) (by decide +kernel) (by decide +kernel) (by decide +kernel)
    (fun a _ => trim_quote a) (fun a _ => readData_ascii a) hk

theorem prt_strname (o : Option Str) (hk : (es.any fun x => x.1 == "strname") = false) :
    (prt "STRNAME:" quote o).foldlM (stepLine io) (.dict es :: rest) =
      some (.dict (es ++ ent "strname" .str o) :: rest) :=
  step_prt (T := "STRNAME".toList) (e := ("STRNAME", .ascii, "strname")) (by decide +kernel)
    (trim_dec (by decide +kernel)) (by decide +kernel) (by decide +kernel) (by decide +kernel)
    (fun a _ => trim_quote a) (fun a _ => readData_ascii a) hk

theorem prt_libname (o : Option Str) (hk : (es.any fun x => x.1 == "libname") = false) :
    (prt "LIBNAME:" quote o).foldlM (stepLine io) (.dict es :: rest) =
      some (.dict (es ++ ent "libname" .str o) :: rest) :=
  step_prt (T := "LIBNAME".toList) (e := ("LIBNAME", .ascii, "libname")) (by decide +kernel)
    (trim_dec (by decide +kernel)) (by decide +kernel) (by decide +kernel) (by decide +kernel)
    (fun a _ => trim_quote a) (fun a _ => readData_ascii a) hk

end entries

theorem any_append_false {l r : List (String × J R)} {k : String} (hl : (l.any fun x => x.1 == k) = false)
    (hr : (r.any fun x => x.1 == k) = false) : ((l ++ r).any fun x => x.1 == k) = false := by
  rw [List.any_append, hl, hr]; rfl

theorem any_one {k k' : String} {v : J R} (h : (k == k') = false) :
    ([(k, v)].any fun x => x.1 == k') = false := by
  simp only [List.any_cons, List.any_nil, Bool.or_false]; exact h

/-- Freshness of a key in a list of entries with other keys. -/
macro "fresh" : tactic => `(tactic| (repeat' first
  | (apply any_append_false) | (apply any_ent; decide) | (apply any_one; decide)))

/-! ## Elements, cells, libraries -/

theorem step_elem {io : RealIO R} (hio : io.Exact) {e : Elem R} (he : e.WF) (st : List (Frame R)) (k : String)
    (items : List (J R)) (r : List (Frame R)) (ho : Opens "elements" st k items r) :
    (printElem io e).foldlM (stepLine io) st = some (.list k (items ++ [e.toJ]) :: r) := by
  cases e with
  | boundary layer datatype xy pa pv =>
    unfold printElem
    rw [List.foldlM_cons, step_boundary, ho]
    simp only [Option.bind_eq_bind, Option.bind_some, List.append_assoc]
    rw [foldlM_app (prt_layer layer (by fresh)), foldlM_app (prt_datatype datatype (by fresh)),
      foldlM_app (prt_xy xy he.1 (by fresh)), foldlM_app (prt_propattr pa (by fresh)),
      foldlM_app (prt_propvalue pv (by fresh)), List.foldlM_cons, step_endel]
    simp [closeD, pop, Elem.toJ]
  | text layer tt pr sr mag angle xy s =>
    unfold printElem
    rw [List.foldlM_cons, step_text, ho]
    simp only [Option.bind_eq_bind, Option.bind_some, List.append_assoc]
    rw [foldlM_app (prt_layer layer (by fresh)), foldlM_app (prt_texttype tt (by fresh)),
      foldlM_app (prt_presentation pr (by fresh)), foldlM_app (prt_strans sr (by fresh)),
      foldlM_app (prt_mag hio mag (by fresh)), foldlM_app (prt_angle hio angle (by fresh)),
      foldlM_app (prt_xy xy he.1 (by fresh)), foldlM_app (prt_string s (by fresh)),
      List.foldlM_cons, step_endel]
    simp [closeD, pop, Elem.toJ]
  | sref sname sr mag angle xy =>
    obtain ⟨h1, _, rfl⟩ := he
    unfold printElem
    rw [List.foldlM_cons, step_sref, ho]
    simp only [Option.bind_eq_bind, Option.bind_some, List.append_assoc]
    rw [foldlM_app (prt_sname sname (by fresh)), foldlM_app (prt_strans sr (by fresh)),
      foldlM_app (prt_angle hio angle (by fresh)), foldlM_app (prt_xy xy h1 (by fresh)),
      List.foldlM_cons, step_endel]
    simp [closeD, pop, Elem.toJ, ent]

theorem step_bgnstr {io : RealIO R} {st : List (Frame R)} {l : List Int} (h : Many l) :
    stepLine io st (line "BGNSTR:" (showInts l)) = openD "bgnstr" [("time", .ints l)] st := by
  rw [stepLine_line (T := "BGNSTR".toList) (e := ("BGNSTR", .int, "bgnstr")) (by decide +kernel)
    (trim_dec (by decide +kernel)) (by decide +kernel) (by decide +kernel) (trim_showInts h)]
  unfold stepTag
  rw [if_neg (by decide), if_pos (by decide)]
  simp only [Option.bind_some, readData_ints h]

theorem step_bgnlib {io : RealIO R} {st : List (Frame R)} {l : List Int} (h : Many l) :
    stepLine io st (line "BGNLIB:" (showInts l)) = openD "bgnlib" [("time", .ints l)] st := by
  rw [stepLine_line (T := "BGNLIB".toList) (e := ("BGNLIB", .int, "bgnlib")) (by decide +kernel)
    (trim_dec (by decide +kernel)) (by decide +kernel) (by decide +kernel) (trim_showInts h)]
  unfold stepTag
  rw [if_neg (by decide), if_pos (by decide)]
  simp only [Option.bind_some, readData_ints h]

theorem step_cell {io : RealIO R} (hio : io.Exact) {c : Cell R} (hc : c.WF) (st : List (Frame R)) (k : String)
    (items : List (J R)) (r : List (Frame R)) (ho : Opens "bgnstr" st k items r) :
    (printCell io c).foldlM (stepLine io) st = some (.list k (items ++ [c.toJ]) :: r) := by
  unfold printCell
  rw [List.foldlM_cons, step_bgnstr hc.time, ho]
  simp only [Option.bind_eq_bind, Option.bind_some]
  have hn := prt_strname (io := io) (es := [("time", .ints c.time)]) (rest := .list k items :: r)
    (some c.strname) (by fresh)
  have : ∀ ls : List Str, line "STRNAME:" (quote c.strname) :: ls =
    prt "STRNAME:" quote (some c.strname) ++ ls := fun _ => rfl
  rw [this, foldlM_app hn]
  cases hel : c.elements with
  | none =>
    simp only [Option.getD_none, List.flatMap_nil, List.nil_append]
    rw [List.foldlM_cons, step_endstr]
    simp [closeD, pop, Cell.toJ, hel, ent]
  | some l =>
    obtain ⟨hl, hw⟩ := hc.elems l hel
    simp only [Option.getD_some]
    rw [foldlM_app (step_many (toJ := Elem.toJ) (fun e he => step_elem hio (hw e he)) hl (opens_dict _ _ _)),
      List.foldlM_cons, step_endstr]
    simp only [closeD, pop, Option.bind_some, Option.bind_eq_bind]
    rw [setKey_fresh _ (by fresh)]
    simp [Cell.toJ, hel, ent]

theorem step_lib {io : RealIO R} (hio : io.Exact) {c : Lib R} (hc : c.WF) (st : List (Frame R)) (k : String)
    (items : List (J R)) (r : List (Frame R)) (ho : Opens "bgnlib" st k items r) :
    (printLib io c).foldlM (stepLine io) st = some (.list k (items ++ [c.toJ]) :: r) := by
  unfold printLib
  rw [List.foldlM_cons, step_bgnlib hc.time, ho]
  simp only [Option.bind_eq_bind, Option.bind_some]
  have hn := prt_libname (io := io) (es := [("time", .ints c.time)]) (rest := .list k items :: r)
    (some c.libname) (by fresh)
  have h1 : ∀ ls : List Str, line "LIBNAME:" (quote c.libname) :: ls =
    prt "LIBNAME:" quote (some c.libname) ++ ls := fun _ => rfl
  have h2 : ∀ ls : List Str, line "UNITS:" (showList (c.units.map io.shw)) :: ls =
    prt "UNITS:" (fun l : List R => showList (l.map io.shw)) (some c.units) ++ ls := fun _ => rfl
  rw [h1, foldlM_app hn, h2, foldlM_app (prt_units hio (some c.units) (fun l hl => by cases hl; exact hc.units)
    (by fresh)), foldlM_app (step_many (toJ := Cell.toJ) (fun e he => step_cell hio (hc.cells.2 e he)) hc.cells.1
    (opens_dict _ _ _)), List.foldlM_cons, step_endlib]
  simp only [closeD, pop, Option.bind_some, Option.bind_eq_bind]
  rw [setKey_fresh _ (by fresh)]
  simp [Lib.toJ, ent]

/-! ## Lines of the file -/

theorem oneLine_of {s : Str} (h : ∀ c ∈ s, isSpace c = false) : OneLine s :=
  ⟨fun hc => absurd (h _ hc) (by decide), fun hc => absurd (h _ hc) (by decide)⟩

theorem oneLine_append {a b : Str} (ha : OneLine a) (hb : OneLine b) : OneLine (a ++ b) :=
  ⟨by simp [ha.1, hb.1], by simp [ha.2, hb.2]⟩

theorem oneLine_cons {c : Char} {s : Str} (h1 : c ≠ '\n') (h2 : c ≠ '\r') (h : OneLine s) : OneLine (c :: s) :=
  ⟨by simp [h.1, h1.symm], by simp [h.2, h2.symm]⟩

theorem oneLine_quote {s : Str} (h : OneLine s) : OneLine (quote s) :=
  oneLine_cons (by decide) (by decide) (oneLine_append h ⟨by decide, by decide⟩)

theorem oneLine_showInt (i : Int) : OneLine (showInt i) := oneLine_of fun c hc => (showInt_plain i c hc).2.1

theorem oneLine_showList {l : List Str} (h : ∀ s ∈ l, OneLine s) : OneLine (showList l) := by
  cases l with
  | nil => exact ⟨by simp [showList], by simp [showList]⟩
  | cons a rest =>
    unfold showList
    refine oneLine_append (h a List.mem_cons_self) ?_
    have hr : ∀ s ∈ rest, OneLine s := fun s hs => h s (List.mem_cons_of_mem _ hs)
    clear h
    induction rest with
    | nil => exact ⟨by simp, by simp⟩
    | cons b rest ih =>
      rw [List.flatMap_cons]
      exact oneLine_append (oneLine_cons (by decide) (by decide) (oneLine_cons (by decide) (by decide)
        (hr b List.mem_cons_self))) (ih fun s hs => hr s (List.mem_cons_of_mem _ hs))

theorem oneLine_showInts (l : List Int) : OneLine (showInts l) :=
  oneLine_showList fun s hs => by obtain ⟨i, _, rfl⟩ := List.mem_map.mp hs; exact oneLine_showInt i

theorem oneLine_shw {io : RealIO R} (hio : io.Exact) (r : R) : OneLine (io.shw r) :=
  oneLine_of fun c hc => (hio.plain r c hc).2

theorem oneLine_line {tag : String} (ht : ∀ c ∈ tag.toList, isSpace c = false) {arg : Str} (h : OneLine arg) :
    OneLine (line tag arg) :=
  oneLine_append (oneLine_of ht) (oneLine_cons (by decide) (by decide) h)

theorem oneLine_prt {α : Type} {tag : String} (ht : ∀ c ∈ tag.toList, isSpace c = false) {f : α → Str} {o : Option α}
    (h : ∀ a, o = some a → OneLine (f a)) : ∀ l ∈ prt tag f o, OneLine l := by
  intro l hl
  cases o with
  | none => simp [prt] at hl
  | some a =>
    simp only [prt, List.mem_singleton] at hl
    subst hl
    exact oneLine_line ht (h a rfl)

theorem oneLine_elem {io : RealIO R} (hio : io.Exact) {e : Elem R} (he : e.WF) :
    ∀ l ∈ printElem io e, OneLine l := by
  have w : ∀ s : String, (∀ c ∈ s.toList, isSpace c = false) → OneLine s.toList := fun s h => oneLine_of h
  intro l hl
  cases e with
  | boundary layer datatype xy pa pv =>
    simp only [printElem, List.mem_cons, List.mem_append, List.not_mem_nil, or_false] at hl
    rcases hl with rfl | ((((hl | hl) | hl) | hl) | hl) | rfl
    · exact w _ (by decide)
    · exact oneLine_prt (by decide) (fun a _ => oneLine_showInt a) l hl
    · exact oneLine_prt (by decide) (fun a _ => oneLine_showInt a) l hl
    · exact oneLine_prt (by decide) (fun a _ => oneLine_showInts a) l hl
    · exact oneLine_prt (by decide) (fun a _ => oneLine_showInt a) l hl
    · exact oneLine_prt (by decide) (fun a h => oneLine_quote (he.2 a h)) l hl
    · exact w _ (by decide)
  | text layer tt pr sr mag angle xy s =>
    simp only [printElem, List.mem_cons, List.mem_append, List.not_mem_nil, or_false] at hl
    rcases hl with rfl | (((((((hl | hl) | hl) | hl) | hl) | hl) | hl) | hl) | rfl
    · exact w _ (by decide)
    · exact oneLine_prt (by decide) (fun a _ => oneLine_showInt a) l hl
    · exact oneLine_prt (by decide) (fun a _ => oneLine_showInt a) l hl
    · exact oneLine_prt (by decide) (fun a _ => oneLine_showInt a) l hl
    · exact oneLine_prt (by decide) (fun a _ => oneLine_showInt a) l hl
    · exact oneLine_prt (by decide) (fun a _ => oneLine_shw hio a) l hl
    · exact oneLine_prt (by decide) (fun a _ => oneLine_shw hio a) l hl
    · exact oneLine_prt (by decide) (fun a _ => oneLine_showInts a) l hl
    · exact oneLine_prt (by decide) (fun a h => oneLine_quote (he.2 a h)) l hl
    · exact w _ (by decide)
  | sref sname sr mag angle xy =>
    simp only [printElem, List.mem_cons, List.mem_append, List.not_mem_nil, or_false] at hl
    rcases hl with rfl | (((hl | hl) | hl) | hl) | rfl
    · exact w _ (by decide)
    · exact oneLine_prt (by decide) (fun a h => oneLine_quote (he.2.1 a h)) l hl
    · exact oneLine_prt (by decide) (fun a _ => oneLine_showInt a) l hl
    · exact oneLine_prt (by decide) (fun a _ => oneLine_shw hio a) l hl
    · exact oneLine_prt (by decide) (fun a _ => oneLine_showInts a) l hl
    · exact w _ (by decide)

theorem oneLine_cell {io : RealIO R} (hio : io.Exact) {c : Cell R} (hc : c.WF) :
    ∀ l ∈ printCell io c, OneLine l := by
  intro l hl
  simp only [printCell, List.mem_cons, List.mem_append, List.not_mem_nil, or_false, List.mem_flatMap] at hl
  rcases hl with rfl | rfl | ⟨e, he, hl⟩ | rfl
  · exact oneLine_line (by decide) (oneLine_showInts _)
  · exact oneLine_line (by decide) (oneLine_quote hc.name)
  · cases hel : c.elements with
    | none => simp [hel] at he
    | some es =>
      rw [hel, Option.getD_some] at he
      exact oneLine_elem hio ((hc.elems es hel).2 e he) l hl
  · exact oneLine_of (by decide)

theorem oneLine_lib {io : RealIO R} (hio : io.Exact) {c : Lib R} (hc : c.WF) :
    ∀ l ∈ printLib io c, OneLine l := by
  intro l hl
  simp only [printLib, List.mem_cons, List.mem_append, List.not_mem_nil, or_false, List.mem_flatMap] at hl
  rcases hl with rfl | rfl | rfl | ⟨e, he, hl⟩ | rfl
  · exact oneLine_line (by decide) (oneLine_showInts _)
  · exact oneLine_line (by decide) (oneLine_quote hc.name)
  · exact oneLine_line (by decide) (oneLine_showList fun s hs => by
      obtain ⟨r, _, rfl⟩ := List.mem_map.mp hs; exact oneLine_shw hio r)
  · exact oneLine_cell hio (hc.cells.2 e he) l hl
  · exact oneLine_of (by decide)

/-! ## C52 -/

/-- **C52 (partial).**  GDS data written as text and read again is the same data: every library, cell,
boundary, text and reference, with all their entries, in the same order.  Missing from the full claim (see the
violations below): magnification of references, strings with line breaks, lists with fewer than two numbers, and
empty lists of libraries, cells and elements. -/
theorem C52_round_trip_partial {io : RealIO R} (hio : io.Exact) {d : Data R} (hd : d.WF) :
    parse io (toFile (printData io d)) = some d.toJ := by
  unfold parse
  rw [readLines_toFile]
  · unfold printData
    have h1 : ∀ ls : List Str, line "HEADER:" (showInt d.header) :: ls =
      prt "HEADER:" showInt (some d.header) ++ ls := fun _ => rfl
    have hh := prt_header (io := io) (es := []) (rest := []) (some d.header) rfl
    have hb := step_many (io := io) (toJ := Lib.toJ) (fun e he => step_lib hio (hd.libs.2 e he)) hd.libs.1
      (opens_dict "bgnlib" ([] ++ ent "header" .int (some d.header)) [])
    rw [h1, foldlM_app hh, hb]
    simp only [Option.bind_some, List.length_cons, List.length_nil, closeAll, pop]
    rw [setKey_fresh _ (by simp [ent])]
    simp [closeAll, Data.toJ, ent]
  · intro l hl
    simp only [printData, List.mem_cons, List.mem_flatMap] at hl
    rcases hl with rfl | ⟨c, hc, hl⟩
    · exact oneLine_line (by decide) (oneLine_showInt _)
    · exact oneLine_lib hio (hd.libs.2 c hc) l hl

end

/-! ### A non-trivial case, and the violations -/

/-- Numbers printed as integers: an instance of `RealIO`. -/
def intIO : RealIO Int := ⟨showInt, readInt⟩

theorem intIO_exact : intIO.Exact :=
  ⟨fun r => (readInt_showInt r).1, fun r => (readInt_showInt r).2,
    fun r c hc => ⟨(showInt_plain r c hc).1, (showInt_plain r c hc).2.1⟩, showInt_ne_nil⟩

/-- A library with two cells: a boundary with a property and a text with a colon, quotes and a comma; a reference. -/
def sample : Data Int :=
  ⟨600, [⟨[2026, 1, 2, 3, 4, 5], "lib".toList, [1, -9],
    [⟨[2026, 1, 2, 3, 4, 5], "leaf".toList, some
       [.boundary (some 17) (some 0) (some [0, 0, -100, 5]) (some 126) (some "a, \"b\": ".toList),
        .text (some 17) none (some 5) (some 0) (some 2) none (some [3, 4]) (some "".toList)]⟩,
     ⟨[2026, 1, 2, 3, 4, 5], "empty".toList, none⟩,
     ⟨[2026, 1, 2, 3, 4, 5], "top".toList, some [.sref (some "leaf".toList) (some 1) none (some 90) (some [7, 8])]⟩]⟩]⟩

theorem sample_wf : sample.WF := by
  refine ⟨by simp [sample], ?_⟩
  intro l hl
  simp only [sample, List.mem_singleton] at hl
  subst hl
  refine ⟨by simp [Many], by unfold OneLine; decide, by simp [Many], by simp, ?_⟩
  intro c hc
  simp only [List.mem_cons, List.not_mem_nil, or_false] at hc
  rcases hc with rfl | rfl | rfl
  · refine ⟨by simp [Many], by unfold OneLine; decide, ?_⟩
    intro l hl
    cases hl
    refine ⟨by simp, ?_⟩
    intro e he
    simp only [List.mem_cons, List.not_mem_nil, or_false] at he
    rcases he with rfl | rfl
    · exact ⟨fun l hl => by cases hl; simp [Many], fun t ht => by cases ht; unfold OneLine; decide⟩
    · exact ⟨fun l hl => by cases hl; simp [Many], fun t ht => by cases ht; unfold OneLine; decide⟩
  · exact ⟨by simp [Many], by unfold OneLine; decide, fun l hl => by cases hl⟩
  · refine ⟨by simp [Many], by unfold OneLine; decide, ?_⟩
    intro l hl
    cases hl
    refine ⟨by simp, ?_⟩
    intro e he
    simp only [List.mem_singleton] at he
    subst he
    exact ⟨fun l hl => by cases hl; simp [Many], fun t ht => by cases ht; unfold OneLine; decide, rfl⟩

example : parse intIO (toFile (printData intIO sample)) = some sample.toJ :=
  C52_round_trip_partial intIO_exact sample_wf

/-- The file of a library with one cell. -/
def oneCell {R : Type} (time : List Int) (units : List R) (els : Option (List (Elem R))) : Data R :=
  ⟨600, [⟨time, "l".toList, units, [⟨time, "c".toList, els⟩]⟩]⟩

/-- **C52 is violated by references with a magnification.**  Two designs that differ only in the magnification of a
reference are written as the same text (json2txt.py 60-65), so no reader can tell them apart. -/
theorem C52_violated_mag {R : Type} (io : RealIO R) (time : List Int) (units : List R) (m : R) :
    printData io (oneCell time units (some [.sref (some "x".toList) none (some m) none (some [0, 0])])) =
      printData io (oneCell time units (some [.sref (some "x".toList) none none none (some [0, 0])])) ∧
    (oneCell time units (some [.sref (some "x".toList) none (some m) none (some [0, 0])])).toJ ≠
      (oneCell time units (some [.sref (some "x".toList) none none none (some [0, 0])])).toJ := by
  refine ⟨rfl, ?_⟩
  simp [oneCell, Data.toJ, Lib.toJ, Cell.toJ, Elem.toJ, ent]

/-- **C52 is violated by strings with line breaks**: reading fails. -/
theorem C52_violated_line_break :
    (parse intIO (toFile (printData intIO
      (oneCell [1, 2] [1, 2] (some [.text none none none none none none none (some "a\nb".toList)]))))).isNone = true := by
  decide +kernel

/-- **C52 is violated by lists with one number**: it is read as a number. -/
theorem C52_violated_single (i : Int) : readData intIO .int (showInts [i]) = some (.int i) := by
  have : showInts [i] = showInt i := by simp [showInts, showList]
  rw [this]; exact readData_int i

/-- **C52 is violated by empty lists of elements**: a cell with an empty list is written like a cell without. -/
theorem C52_violated_empty {R : Type} (io : RealIO R) (time : List Int) (units : List R) :
    printData io (oneCell time units (some [])) = printData io (oneCell time units none) ∧
    (oneCell time units (some [])).toJ ≠ (oneCell time units none).toJ := by
  refine ⟨rfl, ?_⟩
  simp [oneCell, Data.toJ, Lib.toJ, Cell.toJ, ent]

end Verif.Gds

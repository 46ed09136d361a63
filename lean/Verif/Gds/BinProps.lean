import Verif.Gds.Bin

/-! # C82: the round trip through binary records -/

namespace Verif.GdsBin

variable {R : Type}

/-! ## Specification -/

/-- A boundary, path, text, reference, ... with its fields. -/
structure Elem (R : Type) where
  type : String
  fields : List (String × Leaf R)

structure Cell (R : Type) where
  time : List Int
  name : String
  elems : Option (List (Elem R))

structure Lib (R : Type) where
  time : List Int
  name : String
  units : List R
  cells : List (Cell R)

/-- A layout. -/
structure Gds (R : Type) where
  header : Int
  libs : List (Lib R)

/-- The layout as JSON. -/
def Elem.js (e : Elem R) : Dict R := ("type", .leaf (.str e.type)) :: e.fields.map fun kv => (kv.1, .leaf kv.2)

def Cell.js (c : Cell R) : Dict R := ("time", .leaf (.ints c.time)) :: ("strname", .leaf (.str c.name)) ::
  c.elems.toList.map fun es => ("elements", .arr (es.map Elem.js))

def Lib.js (l : Lib R) : Dict R := [("time", .leaf (.ints l.time)), ("libname", .leaf (.str l.name)), ("units", .leaf (.reals l.units)),
  ("bgnstr", .arr (l.cells.map Cell.js))]

def Gds.js (g : Gds R) : Dict R := [("header", .leaf (.int g.header)), ("bgnlib", .arr (g.libs.map Lib.js))]

/-- The kind of value that a field has. -/
def Fits (k : String) (v : Leaf R) : Prop :=
  (k ∈ ["layer", "datatype", "texttype", "pathtype", "width", "propattr", "bgnextn", "endextn", "presentation", "strans"] ∧
    ∃ i, v = .int i) ∨
  (k ∈ ["xy", "colrow"] ∧ ∃ l : List Int, 2 ≤ l.length ∧ v = .ints l) ∨ (k ∈ ["mag", "angle"] ∧ ∃ r, v = .real r) ∨
  (k ∈ ["sname", "string", "propvalue"] ∧ ∃ s, v = .str s)

/-- The fields for each type, by the format, of those that the converter is about. -/
def format (t : String) : List String :=
  if t = "boundary" then ["layer", "datatype", "xy", "propattr", "propvalue"]
  else if t = "path" then ["layer", "datatype", "pathtype", "width", "bgnextn", "endextn", "xy"]
  else if t = "text" then ["layer", "texttype", "presentation", "strans", "mag", "angle", "xy", "string"]
  else if t = "sref" then ["sname", "strans", "mag", "angle", "xy"]
  else if t = "aref" then ["sname", "strans", "mag", "angle", "colrow", "xy"]
  else []

/-- The elements that survive: boundaries, texts, paths without a beginning extension, references without magnification. -/
def kept (t : String) : List String :=
  if t = "boundary" then ["layer", "datatype", "xy", "propattr", "propvalue"]
  else if t = "path" then ["layer", "datatype", "pathtype", "width", "endextn", "xy"]
  else if t = "text" then ["layer", "texttype", "presentation", "strans", "mag", "angle", "xy", "string"]
  else if t = "sref" then ["sname", "strans", "angle", "xy"]
  else []

/-- An element with the given fields for its type. -/
structure Elem.Ok (fs : String → List String) (e : Elem R) : Prop where
  type : fs e.type ≠ []
  keys : (e.fields.map Prod.fst).Nodup
  known : ∀ k v, (k, v) ∈ e.fields → k ∈ fs e.type ∧ Fits k v

/-- A layout with such elements; dates and units have more than one number. -/
def Gds.Ok (fs : String → List String) (g : Gds R) : Prop :=
  ∀ l ∈ g.libs, 2 ≤ l.time.length ∧ 2 ≤ l.units.length ∧
    ∀ c ∈ l.cells, 2 ≤ c.time.length ∧ ∀ es, c.elems = some es → ∀ e ∈ es, e.Ok fs

/-- Equal elements: the order of the fields does not matter. -/
def Elem.Same (e e' : Elem R) : Prop := e.type = e'.type ∧ ∀ k, e.fields.lookup k = e'.fields.lookup k

/-- Equal cells: no list of elements is the same as an empty one. -/
def Cell.Same (c c' : Cell R) : Prop :=
  c.time = c'.time ∧ c.name = c'.name ∧ List.Forall₂ Elem.Same (c.elems.getD []) (c'.elems.getD [])

def Lib.Same (l l' : Lib R) : Prop := l.time = l'.time ∧ l.name = l'.name ∧ l.units = l'.units ∧ List.Forall₂ Cell.Same l.cells l'.cells

def Gds.Same (g g' : Gds R) : Prop := g.header = g'.header ∧ List.Forall₂ Lib.Same g.libs g'.libs

/-- C82 in full, for the layouts with the given fields: a layout that is written can be read, and is the same. -/
def C82_statement (R : Type) (fs : String → List String) : Prop :=
  ∀ g : Gds R, g.Ok fs → ∃ rs, write g.js = some rs ∧ ∃ g' : Gds R, read rs = some g'.js ∧ g.Same g'

/-! ## Proofs -/

theorem lookup_js (l : List (String × Leaf R)) (k : String) :
    (l.map fun kv => (kv.1, Js.leaf kv.2)).lookup k = (l.lookup k).map Js.leaf := by
  induction l with
  | nil => rfl
  | cons a l ih =>
    rw [List.map_cons, List.lookup_cons, List.lookup_cons, ih]
    by_cases h : k = a.1
    · subst h; simp
    · simp [beq_eq_false_iff_ne.2 h]

theorem lookup_mem {β : Type} {l : List (String × β)} {k : String} {v : β} (h : l.lookup k = some v) : (k, v) ∈ l := by
  induction l with
  | nil => simp at h
  | cons a l ih =>
    rw [List.lookup_cons] at h
    by_cases hk : k = a.1
    · subst hk; simp at h; subst h; exact List.mem_cons_self
    · rw [beq_eq_false_iff_ne.2 hk] at h
      exact List.mem_cons_of_mem _ (ih h)

theorem lookup_none {β : Type} {l : List (String × β)} {k : String} : l.lookup k = none ↔ k ∉ l.map Prod.fst := by
  induction l with
  | nil => simp
  | cons a l ih =>
    rw [List.lookup_cons]
    by_cases hk : k = a.1
    · subst hk; simp
    · rw [beq_eq_false_iff_ne.2 hk]
      simp only [ih, List.map_cons, List.mem_cons, hk, false_or]

theorem put_new {d : Dict R} {k : String} (h : k ∉ d.map Prod.fst) (v : Js R) : put d k v = d ++ [(k, v)] := by
  unfold put
  rw [lookup_none.2 h]
  rfl

/-- A pair of key and tag that is written and read correctly. -/
def Good (R : Type) (k t : String) : Prop := low t = k ∧ tagType t ≠ .nodata ∧ starts "BGN" t = false ∧ isElement t = false ∧
  ∀ v : Leaf R, Fits k v → ∃ D, store t v = some (t, D) ∧ shown D = some v

theorem step_good {k t : String} (h : Good R k t) {D : Data R} {v : Leaf R} (hD : shown D = some v) {d : Dict R}
    (hk : k ∉ d.map Prod.fst) (r : List (Frame R)) :
    step (.live (.dict d) r) (t, D) = some (.live (.dict (d ++ [(k, .leaf v)])) r) := by
  obtain ⟨h1, h2, h3, h4, _⟩ := h
  unfold step
  simp only [h4, h1, h3, Bool.false_eq_true, if_false, and_false]
  rw [if_pos h2, hD, Option.map_some, put_new hk]

/-- The fields in the order of writing. -/
def inOrder (d : List (String × Leaf R)) (fs : List (String × String)) : List (String × Leaf R) :=
  fs.filterMap fun kt => (d.lookup kt.1).map fun v => (kt.1, v)

theorem inOrder_keys (d : List (String × Leaf R)) (fs : List (String × String)) :
    ((inOrder d fs).map Prod.fst).Sublist (fs.map Prod.fst) := by
  induction fs with
  | nil => exact .slnil
  | cons kt fs ih =>
    unfold inOrder
    rw [List.filterMap_cons]
    cases d.lookup kt.1 with
    | none => exact .cons _ ih
    | some v => exact .cons_cons _ ih

theorem write_fields (e : Elem R) (fs : List (String × String)) (hg : ∀ kt ∈ fs, ∀ v, e.fields.lookup kt.1 = some v → Good R kt.1 kt.2)
    (hf : ∀ k v, (k, v) ∈ e.fields → Fits k v) (hn : (fs.map Prod.fst).Nodup) (ht : "type" ∉ fs.map Prod.fst) :
    ∃ rs, writeFields e.js fs = some rs ∧ ∀ (acc : List (String × Leaf R)) (x : Js R) (r : List (Frame R)),
      (∀ k ∈ fs.map Prod.fst, k ∉ acc.map Prod.fst) →
      rs.foldlM step (.live (.dict (("type", x) :: acc.map fun kv => (kv.1, .leaf kv.2))) r) =
        some (.live (.dict (("type", x) :: (acc ++ inOrder e.fields fs).map fun kv => (kv.1, .leaf kv.2))) r) := by
  induction fs with
  | nil => exact ⟨[], rfl, by intro acc x r _; simp [inOrder]⟩
  | cons kt fs ih =>
    obtain ⟨k, t⟩ := kt
    rw [List.map_cons, List.nodup_cons] at hn
    simp only [List.map_cons, List.mem_cons, not_or] at ht
    obtain ⟨rs, h1, h2⟩ := ih (fun kt h => hg kt (List.mem_cons_of_mem _ h)) hn.2 ht.2
    have hl : e.js.lookup k = (e.fields.lookup k).map Js.leaf := by
      unfold Elem.js
      rw [List.lookup_cons, beq_eq_false_iff_ne.2 (Ne.symm ht.1)]
      exact lookup_js _ _
    cases hv : e.fields.lookup k with
    | none =>
      refine ⟨rs, ?_, ?_⟩
      · rw [writeFields, hl, hv]; exact h1
      · intro acc x r hacc
        rw [h2 acc x r fun k hk => hacc k (List.mem_cons_of_mem _ hk)]
        simp [inOrder, hv]
    | some v =>
      have good := hg (k, t) List.mem_cons_self v hv
      obtain ⟨D, hD1, hD2⟩ := good.2.2.2.2 v (hf k v (lookup_mem hv))
      refine ⟨(t, D) :: rs, ?_, ?_⟩
      · rw [writeFields, hl, hv]
        simp only [Option.map_some, hD1, Option.bind_some, h1]
      · intro acc x r hacc
        rw [List.foldlM_cons, step_good good hD2]
        · have := h2 (acc ++ [(k, v)]) x r (by
            intro k' hk'
            rw [List.map_append, List.mem_append, not_or]
            refine ⟨hacc k' (List.mem_cons_of_mem _ hk'), ?_⟩
            simp only [List.map_cons, List.map_nil, List.mem_singleton]
            rintro rfl
            exact hn.1 hk')
          rw [List.map_append, List.map_cons, List.map_nil] at this
          rw [List.cons_append]
          simp only [Option.bind_eq_bind, Option.bind_some]
          rw [this]
          simp [inOrder, hv]
        · rw [List.map_cons, List.mem_cons, not_or]
          refine ⟨Ne.symm ht.1, ?_⟩
          rw [List.map_map]
          exact hacc k List.mem_cons_self

theorem fits_int {k : String} {v : Leaf R} (h : Fits k v) (hk : k ∉ ["xy", "colrow", "mag", "angle", "sname", "string", "propvalue"]) :
    ∃ i, v = .int i := by
  rcases h with h | h | h | h
  · exact h.2
  all_goals
    exfalso
    apply hk
    have := h.1
    simp only [List.mem_cons, List.not_mem_nil, or_false] at this ⊢
    tauto

theorem fits_ints {v : Leaf R} (h : Fits "xy" v) : ∃ l : List Int, 2 ≤ l.length ∧ v = .ints l := by
  rcases h with h | h | h | h
  · exact absurd h.1 (by decide)
  · exact h.2
  · exact absurd h.1 (by decide)
  · exact absurd h.1 (by decide)

theorem fits_real {k : String} {v : Leaf R} (h : Fits k v) (hk : k ∈ ["mag", "angle"]) : ∃ r, v = .real r := by
  simp only [List.mem_cons, List.not_mem_nil, or_false] at hk
  rcases h with h | h | h | h
  · rcases hk with rfl | rfl <;> exact absurd h.1 (by decide)
  · rcases hk with rfl | rfl <;> exact absurd h.1 (by decide)
  · exact h.2
  · rcases hk with rfl | rfl <;> exact absurd h.1 (by decide)

theorem fits_str {k : String} {v : Leaf R} (h : Fits k v) (hk : k ∈ ["sname", "string", "propvalue"]) : ∃ r, v = .str r := by
  simp only [List.mem_cons, List.not_mem_nil, or_false] at hk
  rcases h with h | h | h | h
  · rcases hk with rfl | rfl | rfl <;> exact absurd h.1 (by decide)
  · rcases hk with rfl | rfl | rfl <;> exact absurd h.1 (by decide)
  · rcases hk with rfl | rfl | rfl <;> exact absurd h.1 (by decide)
  · exact h.2

theorem shown_ints {l : List Int} (h : 2 ≤ l.length) : shown (R := R) (.ints l) = some (.ints l) := by
  match l, h with
  | _ :: _ :: _, _ => rfl

theorem shown_reals {l : List R} (h : 2 ≤ l.length) : shown (.reals l) = some (.reals l) := by
  match l, h with
  | _ :: _ :: _, _ => rfl

theorem store_ints {t : String} (ht : tagType t = .int) (hl : listTag t = true) {l : List Int} (h : 2 ≤ l.length) :
    store (R := R) t (.ints l) = some (t, .ints l) := by
  match l, h with
  | _ :: _ :: _, _ => simp [store, ht, hl]

theorem good_tags : ∀ kt ∈ [("layer", "LAYER"), ("datatype", "DATATYPE"), ("xy", "XY"), ("propattr", "PROPATTR"),
    ("propvalue", "PROPVALUE"), ("pathtype", "PATHTYPE"), ("width", "WIDTH"), ("endextn", "ENDEXTN"), ("texttype", "TEXTTYPE"),
    ("presentation", "PRESENTATION"), ("strans", "STRANS"), ("mag", "MAG"), ("angle", "ANGLE"), ("string", "STRING"),
    ("sname", "SNAME")], Good R kt.1 kt.2 := by
  have num : ∀ k t, low t = k → tagType t = .int → listTag t = false → starts "BGN" t = false → isElement t = false →
      k ∉ ["xy", "colrow", "mag", "angle", "sname", "string", "propvalue"] → Good R k t := by
    intro k t h1 h2 h3 h4 h5 h6
    refine ⟨h1, by rw [h2]; decide, h4, h5, fun v hv => ?_⟩
    obtain ⟨i, rfl⟩ := fits_int hv h6
    exact ⟨.ints [i], by simp [store, h2, h3], rfl⟩
  have bit : ∀ k t, low t = k → tagType t = .bits → starts "BGN" t = false → isElement t = false →
      k ∉ ["xy", "colrow", "mag", "angle", "sname", "string", "propvalue"] → Good R k t := by
    intro k t h1 h2 h4 h5 h6
    refine ⟨h1, by rw [h2]; decide, h4, h5, fun v hv => ?_⟩
    obtain ⟨i, rfl⟩ := fits_int hv h6
    exact ⟨.bits i, by simp [store, h2], rfl⟩
  have rl : ∀ k t, low t = k → tagType t = .real → listTag t = false → starts "BGN" t = false → isElement t = false →
      k ∈ ["mag", "angle"] → Good R k t := by
    intro k t h1 h2 h3 h4 h5 h6
    refine ⟨h1, by rw [h2]; decide, h4, h5, fun v hv => ?_⟩
    obtain ⟨i, rfl⟩ := fits_real hv h6
    exact ⟨.reals [i], by simp [store, h2, h3], rfl⟩
  have st : ∀ k t, low t = k → tagType t = .ascii → starts "BGN" t = false → isElement t = false →
      k ∈ ["sname", "string", "propvalue"] → Good R k t := by
    intro k t h1 h2 h4 h5 h6
    refine ⟨h1, by rw [h2]; decide, h4, h5, fun v hv => ?_⟩
    obtain ⟨i, rfl⟩ := fits_str hv h6
    exact ⟨.ascii i, by simp [store, h2], rfl⟩
  have xy : Good R "xy" "XY" := by
    refine ⟨by decide +kernel, by decide +kernel, by decide +kernel, by decide +kernel, fun v hv => ?_⟩
    obtain ⟨l, h, rfl⟩ := fits_ints hv
    exact ⟨.ints l, store_ints (by decide +kernel) (by decide +kernel) h, shown_ints h⟩
  intro kt hkt
  simp only [List.mem_cons, List.not_mem_nil, or_false] at hkt
  rcases hkt with rfl | rfl | rfl | rfl | rfl | rfl | rfl | rfl | rfl | rfl | rfl | rfl | rfl | rfl | rfl
  all_goals first
    | exact xy
    | exact num _ _ (by decide +kernel) (by decide +kernel) (by decide +kernel) (by decide +kernel) (by decide +kernel) (by decide +kernel)
    | exact bit _ _ (by decide +kernel) (by decide +kernel) (by decide +kernel) (by decide +kernel) (by decide +kernel)
    | exact rl _ _ (by decide +kernel) (by decide +kernel) (by decide +kernel) (by decide +kernel) (by decide +kernel) (by decide +kernel)
    | exact st _ _ (by decide +kernel) (by decide +kernel) (by decide +kernel) (by decide +kernel) (by decide +kernel)

/-- What the tables say about a type that survives. -/
theorem kept_table {t : String} (h : kept t ≠ []) : ∃ T fs, fieldsOf t = some (T, fs) ∧ isElement T = true ∧ low T = t ∧
    (fs.map Prod.fst).Nodup ∧ "type" ∉ fs.map Prod.fst ∧ (∀ kt ∈ fs, kt.1 ∈ kept t → Good R kt.1 kt.2) ∧
    ∀ k ∈ kept t, k ∈ fs.map Prod.fst := by
  have good : ∀ kt : String × String, kt ∈ [("layer", "LAYER"), ("datatype", "DATATYPE"), ("xy", "XY"), ("propattr", "PROPATTR"),
    ("propvalue", "PROPVALUE"), ("pathtype", "PATHTYPE"), ("width", "WIDTH"), ("endextn", "ENDEXTN"), ("texttype", "TEXTTYPE"),
    ("presentation", "PRESENTATION"), ("strans", "STRANS"), ("mag", "MAG"), ("angle", "ANGLE"), ("string", "STRING"),
    ("sname", "SNAME")] → Good R kt.1 kt.2 := good_tags
  by_cases h1 : t = "boundary"
  · subst h1
    exact ⟨_, _, rfl, by decide +kernel, by decide +kernel, by decide +kernel, by decide +kernel,
      fun kt hkt hk => good kt (by revert kt; decide +kernel), by decide +kernel⟩
  by_cases h2 : t = "path"
  · subst h2
    exact ⟨_, _, rfl, by decide +kernel, by decide +kernel, by decide +kernel, by decide +kernel,
      fun kt hkt hk => good kt (by revert kt; decide +kernel), by decide +kernel⟩
  by_cases h3 : t = "text"
  · subst h3
    exact ⟨_, _, rfl, by decide +kernel, by decide +kernel, by decide +kernel, by decide +kernel,
      fun kt hkt hk => good kt (by revert kt; decide +kernel), by decide +kernel⟩
  by_cases h4 : t = "sref"
  · subst h4
    exact ⟨_, _, rfl, by decide +kernel, by decide +kernel, by decide +kernel, by decide +kernel,
      fun kt hkt hk => good kt (by revert kt; decide +kernel), by decide +kernel⟩
  · exfalso
    apply h
    unfold kept
    rw [if_neg h1, if_neg h2, if_neg h3, if_neg h4]

theorem lookup_inOrder {d : List (String × Leaf R)} {fs : List (String × String)} (hn : (fs.map Prod.fst).Nodup)
    (hk : ∀ k v, (k, v) ∈ d → k ∈ fs.map Prod.fst) (k : String) : (inOrder d fs).lookup k = d.lookup k := by
  have key : ∀ fs : List (String × String), (fs.map Prod.fst).Nodup →
      (inOrder d fs).lookup k = if k ∈ fs.map Prod.fst then d.lookup k else none := by
    intro fs
    induction fs with
    | nil => intro _; rfl
    | cons kt fs ih =>
      intro hn
      rw [List.map_cons, List.nodup_cons] at hn
      have ih := ih hn.2
      have e : inOrder d (kt :: fs) = ((d.lookup kt.1).map fun v => (kt.1, v)).toList ++ inOrder d fs := by
        unfold inOrder
        rw [List.filterMap_cons]
        cases d.lookup kt.1 <;> rfl
      rw [e]
      by_cases h : k = kt.1
      · subst h
        rw [if_pos (by simp)]
        cases hv : d.lookup kt.1 with
        | none => simp [ih, hn.1]
        | some v => simp
      · have : (k ∈ (kt :: fs).map Prod.fst) ↔ k ∈ fs.map Prod.fst := by simp [h]
        simp only [this]
        rw [← ih]
        cases hv : d.lookup kt.1 with
        | none => simp
        | some v =>
          simp only [Option.map_some, Option.toList_some, List.cons_append, List.nil_append, List.lookup_cons,
            beq_eq_false_iff_ne.2 h]
  rw [key fs hn]
  split
  · rfl
  · rename_i h
    cases hv : d.lookup k with
    | none => rfl
    | some v => exact absurd (hk k v (lookup_mem hv)) h

/-- One element: it is appended to the list of elements. -/
theorem elem_ok {e : Elem R} (h : e.Ok kept) : ∃ rs, writeElem e.js = some rs ∧ ∃ e' : Elem R, e.Same e' ∧
    (∀ (d : Dict R) (r : List (Frame R)), rs.foldlM step (.live (.dict d) r) =
      some (.live (.list "elements" [e'.js]) (.dict d :: r))) ∧
    ∀ (l : List (Dict R)) (r : List (Frame R)), rs.foldlM step (.live (.list "elements" l) r) =
      some (.live (.list "elements" (l ++ [e'.js])) r) := by
  obtain ⟨T, fs, t1, t2, t3, t4, t5, t6, t7⟩ := kept_table (R := R) h.type
  obtain ⟨rs, w1, w2⟩ := write_fields e fs (fun kt hkt v hv => t6 kt hkt (h.known _ _ (lookup_mem hv)).1)
    (fun k v hkv => (h.known k v hkv).2) t4 t5
  let e' : Elem R := ⟨e.type, inOrder e.fields fs⟩
  have endel : ∀ (f : Dict R) (k : String) (l : List (Dict R)) (r : List (Frame R)),
      step (.live (.dict f) (.list k l :: r)) ("ENDEL", .empty) = some (.live (.list k (l ++ [f])) r) := by
    intro f k l r
    have a1 : isElement "ENDEL" = false := by decide +kernel
    have a2 : tagType "ENDEL" = .nodata := by decide +kernel
    have a3 : starts "END" "ENDEL" = true := by decide +kernel
    simp [step, a1, a2, a3, up, into]
  have beg : ∀ (f : Frame R) (r : List (Frame R)),
      step (.live f r) (T, .empty) = some (down "elements" [("type", .leaf (.str e.type))] f r) := by
    intro f r
    simp only [step, t2, if_true, t3]
  refine ⟨(T, .empty) :: rs ++ [("ENDEL", .empty)], ?_, e', ⟨rfl, fun k => ?_⟩, ?_, ?_⟩
  · unfold writeElem leafAt
    have : e.js.lookup "type" = some (.leaf (.str e.type)) := by simp [Elem.js]
    rw [this]
    simp only [t1, w1, Option.map_some]
  · exact (lookup_inOrder t4 (fun k v hkv => t7 k (h.known k v hkv).1) k).symm
  · intro d r
    rw [List.cons_append, List.foldlM_cons, beg]
    simp only [Option.bind_eq_bind, Option.bind_some, down]
    have := w2 [] (.leaf (.str e.type)) (.list "elements" [] :: .dict d :: r) (by simp)
    rw [List.map_nil, List.nil_append] at this
    rw [List.foldlM_append, this]
    simp only [Option.bind_eq_bind, Option.bind_some, List.foldlM_cons, endel, List.foldlM_nil]
    rfl
  · intro l r
    rw [List.cons_append, List.foldlM_cons, beg]
    simp only [Option.bind_eq_bind, Option.bind_some, down]
    have := w2 [] (.leaf (.str e.type)) (.list "elements" l :: r) (by simp)
    rw [List.map_nil, List.nil_append] at this
    rw [List.foldlM_append, this]
    simp only [Option.bind_eq_bind, Option.bind_some, List.foldlM_cons, endel, List.foldlM_nil]
    rfl

theorem elems_ok {es : List (Elem R)} (h : ∀ e ∈ es, e.Ok kept) : ∃ rss, (es.map Elem.js).mapM writeElem = some rss ∧
    ∃ es' : List (Elem R), List.Forall₂ Elem.Same es es' ∧
    ∀ (l : List (Dict R)) (r : List (Frame R)), rss.flatten.foldlM step (.live (.list "elements" l) r) =
      some (.live (.list "elements" (l ++ es'.map Elem.js)) r) := by
  induction es with
  | nil => exact ⟨[], rfl, [], .nil, by intro l r; simp⟩
  | cons e es ih =>
    obtain ⟨rss, i1, es', i2, i3⟩ := ih fun x hx => h x (List.mem_cons_of_mem _ hx)
    obtain ⟨rs, j1, e', j2, _, j3⟩ := elem_ok (h e List.mem_cons_self)
    refine ⟨rs :: rss, ?_, e' :: es', .cons j2 i2, ?_⟩
    · simp [List.mapM_cons, j1, i1]
    · intro l r
      rw [List.flatten_cons, List.foldlM_append, j3]
      simp only [Option.bind_eq_bind, Option.bind_some]
      rw [i3]
      simp

theorem step_bgn {t : String} (h1 : isElement t = false) (h2 : tagType t = .int) (h3 : starts "BGN" t = true) {time : List Int}
    (h : 2 ≤ time.length) (f : Frame R) (r : List (Frame R)) :
    step (.live f r) (t, .ints time) = some (down (low t) [("time", .leaf (.ints time))] f r) := by
  simp only [step, h1, h2, h3, Bool.false_eq_true, if_false, shown_ints h, Option.map_some]
  rw [if_pos ⟨by decide, trivial⟩]

theorem step_data {k t : String} (h1 : isElement t = false) (h2 : tagType t ≠ .nodata) (h3 : starts "BGN" t = false) (h4 : low t = k)
    {D : Data R} {v : Leaf R} (hD : shown D = some v) {d : Dict R} (hk : k ∉ d.map Prod.fst) (r : List (Frame R)) :
    step (.live (.dict d) r) (t, D) = some (.live (.dict (d ++ [(k, .leaf v)])) r) := by
  simp only [step, h1, h3, h4, Bool.false_eq_true, if_false, and_false, hD, Option.map_some, put_new hk]
  rw [if_pos h2]

theorem step_end {t : String} (h1 : isElement t = false) (h2 : tagType t = .nodata) (h3 : starts "END" t = true) (f : Frame R)
    (r : List (Frame R)) : step (.live f r) (t, .empty) = some (up f r) := by
  simp [step, h1, h2, h3]

/-- One cell, at a list of cells or in a library. -/
theorem cell_ok {c : Cell R} (ht : 2 ≤ c.time.length) (h : ∀ es, c.elems = some es → ∀ e ∈ es, e.Ok kept) :
    ∃ rs, writeCell c.js = some rs ∧ ∃ c' : Cell R, c.Same c' ∧
    (∀ (d : Dict R) (r : List (Frame R)), rs.foldlM step (.live (.dict d) r) =
      some (.live (.list "bgnstr" [c'.js]) (.dict d :: r))) ∧
    ∀ (k : String) (l : List (Dict R)) (r : List (Frame R)), rs.foldlM step (.live (.list k l) r) =
      some (.live (.list k (l ++ [c'.js])) r) := by
  have b1 : isElement "BGNSTR" = false := by decide +kernel
  have b2 : tagType "BGNSTR" = .int := by decide +kernel
  have b3 : starts "BGN" "BGNSTR" = true := by decide +kernel
  have b4 : low "BGNSTR" = "bgnstr" := by decide +kernel
  have n1 : isElement "STRNAME" = false := by decide +kernel
  have n2 : tagType "STRNAME" = .ascii := by decide +kernel
  have n3 : starts "BGN" "STRNAME" = false := by decide +kernel
  have n4 : low "STRNAME" = "strname" := by decide +kernel
  have e1 : isElement "ENDSTR" = false := by decide +kernel
  have e2 : tagType "ENDSTR" = .nodata := by decide +kernel
  have e3 : starts "END" "ENDSTR" = true := by decide +kernel
  have l1 : (leafAt c.js "time").bind (store "BGNSTR") = some ("BGNSTR", .ints c.time) := by
    simp [leafAt, Cell.js, store_ints b2 (by decide +kernel : listTag "BGNSTR" = true) ht]
  have l2 : (leafAt c.js "strname").bind (store "STRNAME") = some ("STRNAME", .ascii c.name) := by
    have : c.js.lookup "strname" = some (.leaf (.str c.name)) := by simp [Cell.js, List.lookup]
    simp [leafAt, this, store, n2]
  let hd : Dict R := [("time", .leaf (.ints c.time)), ("strname", .leaf (.str c.name))]
  -- the records of the elements, from the cell
  have body : ∃ ess, writeElems c.js = some ess ∧ ∃ c' : Cell R, c.Same c' ∧ ∀ (k : String) (l : List (Dict R)) (r : List (Frame R)),
        (ess.flatten ++ [("ENDSTR", Data.empty)]).foldlM step (.live (.dict hd) (.list k l :: r)) =
          some (.live (.list k (l ++ [c'.js])) r) := by
    have plain : ∀ (k : String) (l : List (Dict R)) (r : List (Frame R)),
        ([("ENDSTR", .empty)] : List (Rec R)).foldlM step (.live (.dict hd) (.list k l :: r)) = some (.live (.list k (l ++ [hd])) r) := by
      intro k l r
      rw [List.foldlM_cons, step_end e1 e2 e3]
      rfl
    cases he : c.elems with
    | none =>
      refine ⟨[], by simp [writeElems, Cell.js, he, List.lookup], ⟨c.time, c.name, none⟩, ⟨rfl, rfl, by rw [he]; exact .nil⟩, ?_⟩
      intro k l r
      exact plain k l r
    | some es =>
      have hl : c.js.lookup "elements" = some (.arr (es.map Elem.js)) := by simp [Cell.js, he, List.lookup]
      cases es with
      | nil =>
        refine ⟨[], by rw [writeElems, hl]; rfl, ⟨c.time, c.name, none⟩, ⟨rfl, rfl, by rw [he]; exact .nil⟩, ?_⟩
        intro k l r
        exact plain k l r
      | cons e es =>
        have hok := h _ he
        obtain ⟨rs, j1, e', j2, j3, _⟩ := elem_ok (hok e List.mem_cons_self)
        obtain ⟨rss, i1, es', i2, i3⟩ := elems_ok fun x hx => hok x (List.mem_cons_of_mem _ hx)
        refine ⟨rs :: rss, ?_, ⟨c.time, c.name, some (e' :: es')⟩, ⟨rfl, rfl, by rw [he]; exact .cons j2 i2⟩, ?_⟩
        · rw [writeElems, hl]
          simp [List.mapM_cons, j1, i1]
        · intro k l r
          rw [List.flatten_cons, List.append_assoc, List.foldlM_append, j3]
          simp only [Option.bind_eq_bind, Option.bind_some]
          rw [List.foldlM_append, i3]
          simp only [Option.bind_eq_bind, Option.bind_some]
          rw [List.foldlM_cons, step_end e1 e2 e3]
          simp only [Option.bind_eq_bind, Option.bind_some, up, into, List.foldlM_nil]
          rw [put_new (by simp [hd])]
          rfl
  obtain ⟨ess, w, c', hs, hr⟩ := body
  refine ⟨("BGNSTR", .ints c.time) :: ("STRNAME", .ascii c.name) :: ess.flatten ++ [("ENDSTR", .empty)], ?_, c', hs, ?_, ?_⟩
  · unfold writeCell
    rw [l1, l2]
    simp only [Option.bind_eq_bind, Option.bind_some]
    rw [w]
    rfl
  · intro d r
    rw [List.cons_append, List.cons_append, List.foldlM_cons, step_bgn b1 b2 b3 ht, b4]
    simp only [Option.bind_eq_bind, Option.bind_some, down]
    rw [List.foldlM_cons, step_data n1 (by rw [n2]; decide) n3 n4 (v := .str c.name) rfl (by simp)]
    simp only [Option.bind_eq_bind, Option.bind_some]
    exact hr "bgnstr" [] (.dict d :: r)
  · intro k l r
    rw [List.cons_append, List.cons_append, List.foldlM_cons, step_bgn b1 b2 b3 ht]
    simp only [Option.bind_eq_bind, Option.bind_some, down]
    rw [List.foldlM_cons, step_data n1 (by rw [n2]; decide) n3 n4 (v := .str c.name) rfl (by simp)]
    simp only [Option.bind_eq_bind, Option.bind_some]
    exact hr k l r

theorem cells_ok {cs : List (Cell R)} (h : ∀ c ∈ cs, 2 ≤ c.time.length ∧ ∀ es, c.elems = some es → ∀ e ∈ es, e.Ok kept) :
    ∃ rss, (cs.map Cell.js).mapM writeCell = some rss ∧ ∃ cs' : List (Cell R), List.Forall₂ Cell.Same cs cs' ∧
    ∀ (k : String) (l : List (Dict R)) (r : List (Frame R)), rss.flatten.foldlM step (.live (.list k l) r) =
      some (.live (.list k (l ++ cs'.map Cell.js)) r) := by
  induction cs with
  | nil => exact ⟨[], rfl, [], .nil, by intro k l r; simp⟩
  | cons e es ih =>
    obtain ⟨rss, i1, es', i2, i3⟩ := ih fun x hx => h x (List.mem_cons_of_mem _ hx)
    obtain ⟨rs, j1, e', j2, _, j3⟩ := cell_ok (h e List.mem_cons_self).1 (h e List.mem_cons_self).2
    refine ⟨rs :: rss, ?_, e' :: es', .cons j2 i2, ?_⟩
    · simp [List.mapM_cons, j1, i1]
    · intro k l r
      rw [List.flatten_cons, List.foldlM_append, j3]
      simp only [Option.bind_eq_bind, Option.bind_some]
      rw [i3]
      simp

/-- One library: like a cell, but it must have a cell. -/
theorem lib_ok {L : Lib R} (ht : 2 ≤ L.time.length) (hu : 2 ≤ L.units.length) (hne : L.cells ≠ [])
    (h : ∀ c ∈ L.cells, 2 ≤ c.time.length ∧ ∀ es, c.elems = some es → ∀ e ∈ es, e.Ok kept) :
    ∃ rs, writeLib L.js = some rs ∧ ∃ L' : Lib R, L.Same L' ∧
    (∀ (d : Dict R) (r : List (Frame R)), rs.foldlM step (.live (.dict d) r) =
      some (.live (.list "bgnlib" [L'.js]) (.dict d :: r))) ∧
    ∀ (k : String) (l : List (Dict R)) (r : List (Frame R)), rs.foldlM step (.live (.list k l) r) =
      some (.live (.list k (l ++ [L'.js])) r) := by
  have b1 : isElement "BGNLIB" = false := by decide +kernel
  have b2 : tagType "BGNLIB" = .int := by decide +kernel
  have b3 : starts "BGN" "BGNLIB" = true := by decide +kernel
  have b4 : low "BGNLIB" = "bgnlib" := by decide +kernel
  have n1 : isElement "LIBNAME" = false := by decide +kernel
  have n2 : tagType "LIBNAME" = .ascii := by decide +kernel
  have n3 : starts "BGN" "LIBNAME" = false := by decide +kernel
  have n4 : low "LIBNAME" = "libname" := by decide +kernel
  have u1 : isElement "UNITS" = false := by decide +kernel
  have u2 : tagType "UNITS" = .real := by decide +kernel
  have u3 : starts "BGN" "UNITS" = false := by decide +kernel
  have u4 : low "UNITS" = "units" := by decide +kernel
  have u5 : listTag "UNITS" = true := by decide +kernel
  have e1 : isElement "ENDLIB" = false := by decide +kernel
  have e2 : tagType "ENDLIB" = .nodata := by decide +kernel
  have e3 : starts "END" "ENDLIB" = true := by decide +kernel
  have l1 : (leafAt L.js "time").bind (store "BGNLIB") = some ("BGNLIB", .ints L.time) := by
    simp [leafAt, Lib.js, store_ints b2 (by decide +kernel : listTag "BGNLIB" = true) ht]
  have l2 : (leafAt L.js "libname").bind (store "LIBNAME") = some ("LIBNAME", .ascii L.name) := by
    have : L.js.lookup "libname" = some (.leaf (.str L.name)) := by simp [Lib.js, List.lookup]
    simp [leafAt, this, store, n2]
  have l3 : (leafAt L.js "units").bind (store "UNITS") = some ("UNITS", .reals L.units) := by
    have : L.js.lookup "units" = some (.leaf (.reals L.units)) := by simp [Lib.js, List.lookup]
    have : L.units ≠ [] := by rintro hc; rw [hc] at hu; simp at hu
    simp_all [leafAt, store]
  have l4 : arrAt L.js "bgnstr" = some (L.cells.map Cell.js) := by simp [arrAt, Lib.js, List.lookup]
  obtain ⟨c, cs, hcs⟩ := List.exists_cons_of_ne_nil hne
  rw [hcs] at h
  obtain ⟨rs, j1, c', j2, j3, _⟩ := cell_ok (h c List.mem_cons_self).1 (h c List.mem_cons_self).2
  obtain ⟨rss, i1, cs', i2, i3⟩ := cells_ok fun x hx => h x (List.mem_cons_of_mem _ hx)
  let L' : Lib R := ⟨L.time, L.name, L.units, c' :: cs'⟩
  have hr : ∀ (k : String) (l : List (Dict R)) (r : List (Frame R)),
      (("LIBNAME", Data.ascii L.name) :: ("UNITS", Data.reals L.units) :: (rs :: rss).flatten ++ [("ENDLIB", Data.empty)]).foldlM step
        (.live (.dict [("time", .leaf (.ints L.time))]) (.list k l :: r)) = some (.live (.list k (l ++ [L'.js])) r) := by
    intro k l r
    rw [List.cons_append, List.cons_append, List.foldlM_cons,
      step_data n1 (by rw [n2]; decide) n3 n4 (v := .str L.name) rfl (by simp)]
    simp only [Option.bind_eq_bind, Option.bind_some]
    rw [List.foldlM_cons, step_data u1 (by rw [u2]; decide) u3 u4 (v := .reals L.units) (shown_reals hu) (by simp)]
    simp only [Option.bind_eq_bind, Option.bind_some]
    simp only [List.flatten_cons, List.append_assoc]
    rw [List.foldlM_append, j3]
    simp only [Option.bind_eq_bind, Option.bind_some]
    rw [List.foldlM_append, i3]
    simp only [Option.bind_eq_bind, Option.bind_some]
    rw [List.foldlM_cons, step_end e1 e2 e3]
    simp only [Option.bind_eq_bind, Option.bind_some, up, into, List.foldlM_nil]
    rw [put_new (by simp)]
    rfl
  refine ⟨("BGNLIB", .ints L.time) :: ("LIBNAME", .ascii L.name) :: ("UNITS", .reals L.units) :: (rs :: rss).flatten ++
    [("ENDLIB", .empty)], ?_, L', ⟨rfl, rfl, rfl, by rw [hcs]; exact .cons j2 i2⟩, ?_, ?_⟩
  · unfold writeLib
    rw [l1, l2, l3, l4, hcs]
    simp [List.mapM_cons, j1, i1]
  · intro d r
    rw [List.cons_append, List.foldlM_cons, step_bgn b1 b2 b3 ht, b4]
    simp only [Option.bind_eq_bind, Option.bind_some, down]
    exact hr "bgnlib" [] (.dict d :: r)
  · intro k l r
    rw [List.cons_append, List.foldlM_cons, step_bgn b1 b2 b3 ht]
    simp only [Option.bind_eq_bind, Option.bind_some, down]
    exact hr k l r

theorem libs_ok {Ls : List (Lib R)} (h : ∀ l ∈ Ls, 2 ≤ l.time.length ∧ 2 ≤ l.units.length ∧ l.cells ≠ [] ∧
      ∀ c ∈ l.cells, 2 ≤ c.time.length ∧ ∀ es, c.elems = some es → ∀ e ∈ es, e.Ok kept) :
    ∃ rss, (Ls.map Lib.js).mapM writeLib = some rss ∧ ∃ Ls' : List (Lib R), List.Forall₂ Lib.Same Ls Ls' ∧
    ∀ (k : String) (l : List (Dict R)) (r : List (Frame R)), rss.flatten.foldlM step (.live (.list k l) r) =
      some (.live (.list k (l ++ Ls'.map Lib.js)) r) := by
  induction Ls with
  | nil => exact ⟨[], rfl, [], .nil, by intro k l r; simp⟩
  | cons e es ih =>
    obtain ⟨rss, i1, es', i2, i3⟩ := ih fun x hx => h x (List.mem_cons_of_mem _ hx)
    obtain ⟨h1, h2, h3, h4⟩ := h e List.mem_cons_self
    obtain ⟨rs, j1, e', j2, _, j3⟩ := lib_ok h1 h2 h3 h4
    refine ⟨rs :: rss, ?_, e' :: es', .cons j2 i2, ?_⟩
    · simp [List.mapM_cons, j1, i1]
    · intro k l r
      rw [List.flatten_cons, List.foldlM_append, j3]
      simp only [Option.bind_eq_bind, Option.bind_some]
      rw [i3]
      simp

/-- **C82 (partial).**  A layout of boundaries, texts, paths without a beginning extension and references without magnification that is
written as binary records reads back as the same layout.  There must be a library, and each library must have a cell.  Missing: paths
with a beginning extension (`C82_violated_path`), references with magnification (`C82_violated_mag`), arrays of references
(`C82_violated_aref`), empty libraries (`C82_violated_empty`). -/
theorem C82_round_trip_partial (g : Gds R) (h : g.Ok kept) (h1 : g.libs ≠ []) (h2 : ∀ l ∈ g.libs, l.cells ≠ []) :
    ∃ rs, write g.js = some rs ∧ ∃ g' : Gds R, read rs = some g'.js ∧ g.Same g' := by
  have n1 : isElement "HEADER" = false := by decide +kernel
  have n2 : tagType "HEADER" = .int := by decide +kernel
  have n3 : starts "BGN" "HEADER" = false := by decide +kernel
  have n4 : low "HEADER" = "header" := by decide +kernel
  have n5 : listTag "HEADER" = false := by decide +kernel
  have l1 : (leafAt g.js "header").bind (store "HEADER") = some ("HEADER", .ints [g.header]) := by
    simp [leafAt, Gds.js, store, n2, n5]
  have l2 : arrAt g.js "bgnlib" = some (g.libs.map Lib.js) := by simp [arrAt, Gds.js, List.lookup]
  obtain ⟨L, Ls, hLs⟩ := List.exists_cons_of_ne_nil h1
  have hall : ∀ l ∈ L :: Ls, 2 ≤ l.time.length ∧ 2 ≤ l.units.length ∧ l.cells ≠ [] ∧
      ∀ c ∈ l.cells, 2 ≤ c.time.length ∧ ∀ es, c.elems = some es → ∀ e ∈ es, e.Ok kept := by
    intro l hl
    obtain ⟨a, b, c⟩ := h l (hLs ▸ hl)
    exact ⟨a, b, h2 l (hLs ▸ hl), c⟩
  obtain ⟨k1, k2, k3, k4⟩ := hall L List.mem_cons_self
  obtain ⟨rs, j1, L', j2, j3, _⟩ := lib_ok k1 k2 k3 k4
  obtain ⟨rss, i1, Ls', i2, i3⟩ := libs_ok fun x hx => hall x (List.mem_cons_of_mem _ hx)
  refine ⟨("HEADER", .ints [g.header]) :: (rs :: rss).flatten, ?_, ⟨g.header, L' :: Ls'⟩, ?_, rfl, by rw [hLs]; exact .cons j2 i2⟩
  · unfold write
    rw [l1, l2, hLs]
    simp [List.mapM_cons, j1, i1]
  · unfold read
    rw [List.foldlM_cons, step_data n1 (by rw [n2]; decide) n3 n4 (v := .int g.header) rfl (by simp)]
    simp only [Option.bind_eq_bind, Option.bind_some]
    rw [List.flatten_cons, List.foldlM_append, j3]
    simp only [Option.bind_eq_bind, Option.bind_some]
    rw [i3]
    simp only [Option.map_some, collapse, into]
    rw [put_new (by simp)]
    rfl

end Verif.GdsBin

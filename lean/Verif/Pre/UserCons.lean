import Batteries.Data.Char.AsciiCasing
import Mathlib.Data.List.Basic
import Mathlib.Tactic.SplitIfs
import Verif.Util.Sort

/-!
# C88: instances named in constraints of the user are not grouped automatically

Model of `ConstraintParser.annotate_user_constraints` (`align/compiler/user_const.py`, 34-90), the upper-casing validators and
`yield_constraints` of the constraints (`align/schema/constraint.py`), and `_is_skip` (`align/compiler/match_graph.py`, 35-45).

Simplifications: names are lists of characters, upper case is that of ASCII letters; a constraint is its kind and the names in it,
checks that only reject a constraint (numbers of instances, equal parameters, ports) are left out except the check that instances
exist; `insts` are the names of the instances and groups of the design; the design has no constraints before; constraints inside
`GroupBlocks` are left out.  An exception is `none`.
-/

namespace Verif.UserCons

abbrev Name := List Char

def up (s : Name) : Name := s.map Char.toUpper

inductive Con
  /-- `Order`, `Align`, `Spread`, `PlaceCloser` -/
  | listed (xs : List Name)
  /-- `AlignInOrder` -/
  | inOrder (xs : List Name)
  /-- `PlaceOnBoundary` -/
  | boundary (xs : List Name)
  /-- `Floorplan` -/
  | floorplan (rs : List (List Name)) (order symmetrize : Bool)
  /-- `SameTemplate` -/
  | same (xs : List Name)
  /-- `SymmetricBlocks` -/
  | pairs (ps : List (List Name))
  /-- `SymmetricNets` -/
  | nets (pins1 pins2 : Option (List Name))
  /-- `DoNotIdentify` -/
  | dni (xs : List Name)
  /-- `GroupBlocks`, `GroupCaps` -/
  | group (xs : List Name)
  | other
  deriving DecidableEq

/-- `validate_instances` (constraint.py 35-41). -/
def validate (insts : List Name) (xs : List Name) : Option (List Name) :=
  if xs.all fun x => decide (x ∈ insts ∨ up x ∈ insts) then some (xs.map up) else none

/-- The instance of a pin, `pin.split('/')[0]` if there is a `/`. -/
def pinInst (p : Name) : Option Name := if '/' ∈ p then some (p.takeWhile (· ≠ '/')) else none

/-- `pins1_validator`, `pins2_validator` (constraint.py 1285-1308). -/
def validatePins (insts : List Name) (ps : List Name) : Option (List Name) :=
  if (ps.map up).all fun p => (pinInst p).all fun x => decide (up x ∈ insts) then some (ps.map up) else none

/-- A list of pins that may be missing. -/
def validateOpt (insts : List Name) (ps : Option (List Name)) : Option (Option (List Name)) :=
  match ps with
  | none => some none
  | some ps => (validatePins insts ps).map some

/-- The validators of the constraints (constraint.py 160, 253, 325, 569, 695, 729, 749, 938, 972, 1285). -/
def load (insts : List Name) : Con → Option Con
  | .listed xs => (validate insts xs).map .listed
  | .inOrder xs => some (.inOrder xs)
  | .boundary xs => (validate insts xs).map .boundary
  | .floorplan rs o s => (rs.mapM (validate insts)).map fun rs => .floorplan rs o s
  | .same xs => (validate insts xs).map .same
  | .pairs ps => (ps.mapM (validate insts)).map .pairs
  | .nets p1 p2 => (validateOpt insts p1).bind fun a => (validateOpt insts p2).map fun b => .nets a b
  | .dni xs => some (.dni xs)
  | .group xs => some (.group xs)
  | .other => some .other

/-- Instances in upper case (user_const.py 57-65). -/
def upper : Con → Con
  | .listed xs => .listed (xs.map up)
  | .inOrder xs => .inOrder (xs.map up)
  | .same xs => .same (xs.map up)
  | .dni xs => .dni (xs.map up)
  | .group xs => .group (xs.map up)
  | .pairs ps => .pairs (ps.map fun p => p.map up)
  | c => c

/-- The names of a list of instances, if there are several (72-73). -/
def several (xs : List Name) : List Name := if xs.length > 1 then xs else []

/-- The names of a constraint for `DoNotIdentify` (68-79). -/
def names : Con → Option (List Name)
  | .listed xs => some (several xs)
  | .inOrder xs => some (several xs)
  | .same xs => some (several xs)
  | .dni xs => some (several xs)
  | .pairs ps => some ps.flatten
  | .nets (some (p :: ps)) p2 => p2.map fun qs => (p :: ps ++ qs).filterMap pinInst
  | _ => some []

def leName (a b : Name) : Bool := decide (a ≤ b)

/-- After reading a file of the design (56-88). -/
def protect (cs : List Con) : Option (List Con) :=
  (cs.mapM names).map fun ls =>
    if ls.flatten = [] then cs else cs ++ [.dni (pySort leName ls.flatten.eraseDups)]

/-- The file of the design (44-48). -/
def file (files : List (Name × List Con)) (name : Name) : Option (List Con) :=
  (files.find? fun f => decide (up f.1 = name ++ ".CONST".toList)).map Prod.snd

/-- `annotate_user_constraints` (34-90); `combined` is `const.json`. -/
def annotate (insts : List Name) (combined files : List (Name × List Con)) (name : Name) : Option (List Con) :=
  (((combined.lookup name).getD []).mapM (load insts)).bind fun c1 =>
    match file files name with
    | none => some c1
    | some f => (f.mapM (load insts)).bind fun c2 => protect ((c1 ++ c2).map upper)

/-- `DoNotIdentify` from `yield_constraints`, and those given (match_graph.py 36-40). -/
def expand : Con → List Name
  | .listed xs => xs
  | .inOrder xs => xs
  | .boundary xs => xs
  | .floorplan rs o s => if s && o then rs.flatten else []
  | .pairs ps => ps.flatten
  | .dni xs => xs
  | _ => []

/-- `_is_skip` (match_graph.py 35-45). -/
def skip (cs : List Con) : List Name := cs.flatMap expand

/-! ## Specification -/

/-- The constraint names the instance. -/
inductive Mentions : Con → Name → Prop
  | listed {xs x} : x ∈ xs → Mentions (.listed xs) x
  | inOrder {xs x} : x ∈ xs → Mentions (.inOrder xs) x
  | boundary {xs x} : x ∈ xs → Mentions (.boundary xs) x
  | floorplan {rs o s r x} : r ∈ rs → x ∈ r → Mentions (.floorplan rs o s) x
  | same {xs x} : x ∈ xs → Mentions (.same xs) x
  | pairs {ps p x} : p ∈ ps → x ∈ p → Mentions (.pairs ps) x
  | nets1 {ps qs x y} : '/' ∉ x → x ++ '/' :: y ∈ ps → Mentions (.nets (some ps) (some qs)) x
  | nets2 {ps qs x y} : '/' ∉ x → x ++ '/' :: y ∈ qs → Mentions (.nets (some ps) (some qs)) x
  | dni {xs x} : x ∈ xs → Mentions (.dni xs) x

/-- The constraint was given for the design: in `const.json`, or in a file that has the name of the design. -/
def Given (combined files : List (Name × List Con)) (name : Name) (c : Con) : Prop :=
  (∃ e ∈ combined, e.1 = name ∧ c ∈ e.2) ∨ ∃ f ∈ files, up f.1 = name ++ ".CONST".toList ∧ c ∈ f.2

/-- All instances named by constraints for the design are kept out of the grouping. -/
def Protected (combined files : List (Name × List Con)) (name : Name) (cs : List Con) : Prop :=
  ∀ c x, Given combined files name c → Mentions c x → up x ∈ skip cs

/-- The constraints for which this holds. -/
inductive Covered (hasFile : Prop) : Con → Name → Prop
  | listed {xs x} : Covered hasFile (.listed xs) x
  | boundary {xs x} : Covered hasFile (.boundary xs) x
  | pairs {ps x} : Covered hasFile (.pairs ps) x
  | floorplan {rs x} : Covered hasFile (.floorplan rs true true) x
  | inOrder {xs x} : hasFile ∨ up x = x → Covered hasFile (.inOrder xs) x
  | dni {xs x} : hasFile ∨ up x = x → Covered hasFile (.dni xs) x
  | same {xs x} : hasFile → xs.length ≠ 1 → Covered hasFile (.same xs) x
  | nets {p ps qs x} : hasFile → Covered hasFile (.nets (some (p :: ps)) (some qs)) x

/-! ## Proofs -/

theorem up_up (s : Name) : up (up s) = up s := by
  simp [up]

theorem slash_iff (c : Char) : c.toUpper = '/' ↔ c = '/' := by
  constructor
  · intro h
    have h1 : c.isAlpha = false := by
      rw [← Char.isAlpha_toUpper_eq_isAlpha, h]; decide
    have h2 : ¬ c.isLower := by
      intro h3
      simp [Char.isAlpha, h3] at h1
    rw [← Char.toUpper_eq_of_not_isLower h2]; exact h
  · rintro rfl; decide

theorem pinInst_up {x y : Name} (h : '/' ∉ x) : pinInst (up (x ++ '/' :: y)) = some (up x) := by
  have h1 : up (x ++ '/' :: y) = up x ++ '/' :: up y := by
    simp [up]
  have h2 : '/' ∉ up x := by
    intro hm
    obtain ⟨c, hc, e⟩ := List.mem_map.1 hm
    rw [slash_iff] at e
    exact h (e ▸ hc)
  rw [h1, pinInst, if_pos (by simp), List.takeWhile_append_of_pos]
  · simp
  · intro c hc
    simp only [decide_eq_true_eq]
    exact fun e => h2 (e ▸ hc)

theorem mapM_mem {α β : Type} {f : α → Option β} : ∀ {l : List α} {r : List β}, l.mapM f = some r →
    (∀ a ∈ l, ∃ b ∈ r, f a = some b) ∧ ∀ b ∈ r, ∃ a ∈ l, f a = some b
  | [], r, h => by
    simp at h
    subst h
    simp
  | a :: l, r, h => by
    simp only [List.mapM_cons, Option.pure_def, Option.bind_eq_bind, Option.bind_eq_some_iff, Option.some.injEq] at h
    obtain ⟨b, hb, r', hr, rfl⟩ := h
    obtain ⟨h1, h2⟩ := mapM_mem hr
    constructor
    · intro x hx
      rcases List.mem_cons.1 hx with rfl | hx
      · exact ⟨b, by simp, hb⟩
      · obtain ⟨y, hy, e⟩ := h1 x hx
        exact ⟨y, by simp [hy], e⟩
    · intro y hy
      rcases List.mem_cons.1 hy with rfl | hy
      · exact ⟨a, by simp, hb⟩
      · obtain ⟨x, hx, e⟩ := h2 y hy
        exact ⟨x, by simp [hx], e⟩

variable {insts : List Name} {combined files : List (Name × List Con)} {name : Name} {cs : List Con}

theorem validate_some {xs ys : List Name} (h : validate insts xs = some ys) : ys = xs.map up := by
  unfold validate at h
  split_ifs at h
  exact (Option.some.inj h).symm

theorem validatePins_some {xs ys : List Name} (h : validatePins insts xs = some ys) : ys = xs.map up := by
  unfold validatePins at h
  split_ifs at h
  exact (Option.some.inj h).symm

theorem mapM_validate {rs ss : List (List Name)} (h : rs.mapM (validate insts) = some ss) : ss = rs.map fun r => r.map up := by
  induction rs generalizing ss with
  | nil => simp at h; simp [h]
  | cons r rs ih =>
    simp only [List.mapM_cons, Option.pure_def, Option.bind_eq_bind, Option.bind_eq_some_iff, Option.some.injEq] at h
    obtain ⟨b, hb, r', hr, rfl⟩ := h
    rw [validate_some hb, ih hr, List.map_cons]

theorem mem_skip {x : Name} : x ∈ skip cs ↔ ∃ c ∈ cs, x ∈ expand c := List.mem_flatMap

/-- A loaded constraint keeps the instances out by itself. -/
theorem load_expand {c c' : Con} {x : Name} {F : Prop} (hl : load insts c = some c') (hm : Mentions c x) (hc : Covered F c x) :
    up x ∈ expand c' ∨ F := by
  cases hm with
  | listed h =>
    simp only [load, Option.map_eq_some_iff] at hl
    obtain ⟨ys, hy, rfl⟩ := hl
    rw [validate_some hy]
    exact Or.inl (List.mem_map_of_mem h)
  | inOrder h =>
    cases hc with
    | inOrder hc =>
      simp only [load, Option.some.injEq] at hl
      subst hl
      rcases hc with hc | hc
      · exact Or.inr hc
      · rw [hc]; exact Or.inl h
  | boundary h =>
    simp only [load, Option.map_eq_some_iff] at hl
    obtain ⟨ys, hy, rfl⟩ := hl
    rw [validate_some hy]
    exact Or.inl (List.mem_map_of_mem h)
  | floorplan h1 h2 =>
    cases hc
    simp only [load, Option.map_eq_some_iff] at hl
    obtain ⟨ys, hy, rfl⟩ := hl
    rw [mapM_validate hy]
    refine Or.inl ?_
    simp only [expand, Bool.and_self, if_true, List.mem_flatten, List.mem_map]
    exact ⟨_, ⟨_, h1, rfl⟩, List.mem_map_of_mem h2⟩
  | same h =>
    cases hc with
    | same hf _ => exact Or.inr hf
  | pairs h1 h2 =>
    simp only [load, Option.map_eq_some_iff] at hl
    obtain ⟨ys, hy, rfl⟩ := hl
    rw [mapM_validate hy]
    refine Or.inl ?_
    simp only [expand, List.mem_flatten, List.mem_map]
    exact ⟨_, ⟨_, h1, rfl⟩, List.mem_map_of_mem h2⟩
  | nets1 h1 h2 => cases hc with | nets hf => exact Or.inr hf
  | nets2 h1 h2 => cases hc with | nets hf => exact Or.inr hf
  | dni h =>
    cases hc with
    | dni hc =>
      simp only [load, Option.some.injEq] at hl
      subst hl
      rcases hc with hc | hc
      · exact Or.inr hc
      · rw [hc]; exact Or.inl h

theorem mem_up_map {x : Name} {xs : List Name} (h : up x ∈ xs) : up x ∈ xs.map up := by
  have := List.mem_map_of_mem (f := up) h
  rwa [up_up] at this

/-- A constraint in upper case keeps out what it kept out. -/
theorem upper_expand {c : Con} {x : Name} (h : up x ∈ expand c) : up x ∈ expand (upper c) := by
  cases c with
  | listed xs => exact mem_up_map h
  | inOrder xs => exact mem_up_map h
  | boundary xs => exact h
  | floorplan rs o s => exact h
  | same xs => simp [expand] at h
  | pairs ps =>
    simp only [expand, upper, List.mem_flatten, List.mem_map] at h ⊢
    obtain ⟨p, hp, hx⟩ := h
    exact ⟨_, ⟨p, hp, rfl⟩, mem_up_map hx⟩
  | nets a b => simp [expand] at h
  | dni xs => exact mem_up_map h
  | group xs => simp [expand] at h
  | other => simp [expand] at h

/-- With a file, a constraint is either kept out by itself or by the names collected. -/
theorem upper_names {c c' : Con} {x : Name} {l : List Name} (hl : load insts c = some c') (hn : names (upper c') = some l) (hm : Mentions c x)
    (hc : Covered True c x) : up x ∈ expand (upper c') ∨ up x ∈ l := by
  cases hm with
  | listed h => exact Or.inl (upper_expand ((load_expand (F := False) hl (.listed h) .listed).resolve_right id))
  | boundary h => exact Or.inl (upper_expand ((load_expand (F := False) hl (.boundary h) .boundary).resolve_right id))
  | pairs h1 h2 => exact Or.inl (upper_expand ((load_expand (F := False) hl (.pairs h1 h2) .pairs).resolve_right id))
  | floorplan h1 h2 =>
    cases hc
    exact Or.inl (upper_expand ((load_expand (F := False) hl (.floorplan h1 h2) .floorplan).resolve_right id))
  | inOrder h =>
    simp only [load, Option.some.injEq] at hl
    subst hl
    exact Or.inl (List.mem_map_of_mem h)
  | dni h =>
    simp only [load, Option.some.injEq] at hl
    subst hl
    exact Or.inl (List.mem_map_of_mem h)
  | same h =>
    rename_i xs
    cases hc with
    | same _ hlen =>
      simp only [load, Option.map_eq_some_iff] at hl
      obtain ⟨ys, hy, rfl⟩ := hl
      rw [validate_some hy] at hn
      simp only [upper, names, Option.some.injEq, several, List.length_map] at hn
      have h0 : 0 < xs.length := List.length_pos_of_mem h
      rw [if_pos (by omega)] at hn
      subst hn
      exact Or.inr (mem_up_map (List.mem_map_of_mem h))
  | nets1 h1 h2 =>
    cases hc with
    | nets _ =>
      simp only [load, validateOpt, Option.bind_eq_some_iff, Option.map_eq_some_iff] at hl
      obtain ⟨a, ⟨ps', hp, rfl⟩, b, ⟨qs', hq, rfl⟩, rfl⟩ := hl
      rw [validatePins_some hp, validatePins_some hq] at hn
      simp only [List.map_cons, upper, names, Option.map_some, Option.some.injEq] at hn
      subst hn
      right
      rw [List.mem_filterMap]
      have h3 := List.mem_map_of_mem (f := up) h2
      rw [List.map_cons] at h3
      exact ⟨_, List.mem_append.2 (Or.inl h3), pinInst_up h1⟩
  | nets2 h1 h2 =>
    cases hc with
    | nets _ =>
      simp only [load, validateOpt, Option.bind_eq_some_iff, Option.map_eq_some_iff] at hl
      obtain ⟨a, ⟨ps', hp, rfl⟩, b, ⟨qs', hq, rfl⟩, rfl⟩ := hl
      rw [validatePins_some hp, validatePins_some hq] at hn
      simp only [List.map_cons, upper, names, Option.map_some, Option.some.injEq] at hn
      subst hn
      right
      rw [List.mem_filterMap]
      exact ⟨_, List.mem_append.2 (Or.inr (List.mem_map_of_mem h2)), pinInst_up h1⟩

theorem protect_skip {cs cs' : List Con} (h : protect cs = some cs') : ∃ ls, cs.mapM names = some ls ∧
    ∀ x, x ∈ skip cs' ↔ x ∈ skip cs ∨ x ∈ ls.flatten := by
  unfold protect at h
  rw [Option.map_eq_some_iff] at h
  obtain ⟨ls, hl, he⟩ := h
  refine ⟨ls, hl, ?_⟩
  intro x
  split_ifs at he with h0
  · subst he; rw [h0]; simp
  · subst he
    simp [skip, expand, mem_pySort]

theorem lookup_mem {e : Name × List Con} (hn : (combined.map Prod.fst).Nodup) (he : e ∈ combined) : combined.lookup e.1 = some e.2 := by
  induction combined with
  | nil => simp at he
  | cons a l ih =>
    rw [List.map_cons, List.nodup_cons] at hn
    rcases List.mem_cons.1 he with rfl | he
    · exact List.lookup_cons_self
    · have : ¬ e.1 = a.1 := fun h => hn.1 (h ▸ List.mem_map_of_mem he)
      rw [List.lookup_cons]
      rw [beq_eq_false_iff_ne.2 this]
      exact ih hn.2 he

/-- **C88, part**: if `const.json` has each design once, and there is at most one file for the design, then the instances named by
the constraints that are covered are kept out of the grouping. -/
theorem C88_protected_partial (hn : (combined.map Prod.fst).Nodup)
    (hf : ∀ f ∈ files, ∀ g ∈ files, up f.1 = name ++ ".CONST".toList → up g.1 = name ++ ".CONST".toList → f = g)
    (h : annotate insts combined files name = some cs) (c : Con) (x : Name) (hg : Given combined files name c) (hm : Mentions c x)
    (hc : Covered (∃ f ∈ files, up f.1 = name ++ ".CONST".toList) c x) : up x ∈ skip cs := by
  unfold annotate at h
  rw [Option.bind_eq_some_iff] at h
  obtain ⟨c1, h1, h2⟩ := h
  cases hfile : file files name with
  | none =>
    rw [hfile] at h2
    simp only [Option.some.injEq] at h2
    subst h2
    have hnof : ¬ ∃ f ∈ files, up f.1 = name ++ ".CONST".toList := by
      rintro ⟨f, hf1, hf2⟩
      unfold file at hfile
      rw [Option.map_eq_none_iff, List.find?_eq_none] at hfile
      exact hfile f hf1 (by simpa using hf2)
    rcases hg with ⟨e, he, rfl, hce⟩ | ⟨f, hf1, hf2, _⟩
    · rw [lookup_mem hn he, Option.getD_some] at h1
      obtain ⟨c', hc', hl⟩ := (mapM_mem h1).1 c hce
      rcases load_expand hl hm hc with h3 | h3
      · exact mem_skip.2 ⟨c', hc', h3⟩
      · exact absurd h3 hnof
    · exact absurd ⟨f, hf1, hf2⟩ hnof
  | some fc =>
    rw [hfile] at h2
    simp only [Option.bind_eq_some_iff] at h2
    obtain ⟨c2, h3, h4⟩ := h2
    unfold file at hfile
    rw [Option.map_eq_some_iff] at hfile
    obtain ⟨f0, hf0, rfl⟩ := hfile
    have hf0m := List.mem_of_find?_eq_some hf0
    have hf0n : up f0.1 = name ++ ".CONST".toList := by simpa using List.find?_some hf0
    obtain ⟨ls, hls, hsk⟩ := protect_skip h4
    have hex : ∃ c' ∈ c1 ++ c2, load insts c = some c' := by
      rcases hg with ⟨e, he, rfl, hce⟩ | ⟨f, hf1, hf2, hcf⟩
      · rw [lookup_mem hn he, Option.getD_some] at h1
        obtain ⟨c', hc', hl⟩ := (mapM_mem h1).1 c hce
        exact ⟨c', by simp [hc'], hl⟩
      · have := hf f hf1 f0 hf0m hf2 hf0n
        subst this
        obtain ⟨c', hc', hl⟩ := (mapM_mem h3).1 c hcf
        exact ⟨c', by simp [hc'], hl⟩
    obtain ⟨c', hc', hl⟩ := hex
    obtain ⟨l, hl1, hl2⟩ := (mapM_mem hls).1 (upper c') (List.mem_map_of_mem hc')
    have hc2 : Covered True c x := by
      cases hc with
      | listed => exact .listed
      | boundary => exact .boundary
      | pairs => exact .pairs
      | floorplan => exact .floorplan
      | inOrder _ => exact .inOrder (Or.inl trivial)
      | dni _ => exact .dni (Or.inl trivial)
      | same _ h => exact .same trivial h
      | nets _ => exact .nets trivial
    rw [hsk]
    rcases upper_names hl hl2 hm hc2 with h5 | h5
    · exact Or.inl (mem_skip.2 ⟨_, List.mem_map_of_mem hc', h5⟩)
    · exact Or.inr (List.mem_flatten.2 ⟨l, hl1, h5⟩)

theorem flatten_up {ps : List (List Name)} {y : Name} (h : y ∈ (ps.map fun r => r.map up).flatten) : ∃ p ∈ ps, ∃ x ∈ p, y = up x := by
  simp only [List.mem_flatten, List.mem_map] at h
  obtain ⟨_, ⟨p, hp, rfl⟩, hy⟩ := h
  obtain ⟨x, hx, rfl⟩ := List.mem_map.1 hy
  exact ⟨p, hp, x, hx, rfl⟩

/-- Names of a loaded constraint are those of the constraint. -/
theorem expand_only {c c' : Con} (hl : load insts c = some c') {y : Name} (hy : y ∈ expand c') : ∃ x, Mentions c x ∧ (y = x ∨ y = up x) := by
  cases c with
  | listed xs =>
    simp only [load, Option.map_eq_some_iff] at hl
    obtain ⟨ys, h, rfl⟩ := hl
    rw [validate_some h] at hy
    obtain ⟨x, hx, rfl⟩ := List.mem_map.1 hy
    exact ⟨x, .listed hx, Or.inr rfl⟩
  | inOrder xs =>
    simp only [load, Option.some.injEq] at hl
    subst hl
    exact ⟨y, .inOrder hy, Or.inl rfl⟩
  | boundary xs =>
    simp only [load, Option.map_eq_some_iff] at hl
    obtain ⟨ys, h, rfl⟩ := hl
    rw [validate_some h] at hy
    obtain ⟨x, hx, rfl⟩ := List.mem_map.1 hy
    exact ⟨x, .boundary hx, Or.inr rfl⟩
  | floorplan rs o s =>
    simp only [load, Option.map_eq_some_iff] at hl
    obtain ⟨ys, h, rfl⟩ := hl
    rw [mapM_validate h] at hy
    simp only [expand] at hy
    split_ifs at hy
    · obtain ⟨p, hp, x, hx, rfl⟩ := flatten_up hy
      exact ⟨x, .floorplan hp hx, Or.inr rfl⟩
    · simp at hy
  | same xs =>
    simp only [load, Option.map_eq_some_iff] at hl
    obtain ⟨ys, h, rfl⟩ := hl
    simp [expand] at hy
  | pairs ps =>
    simp only [load, Option.map_eq_some_iff] at hl
    obtain ⟨ys, h, rfl⟩ := hl
    rw [mapM_validate h] at hy
    obtain ⟨p, hp, x, hx, rfl⟩ := flatten_up hy
    exact ⟨x, .pairs hp hx, Or.inr rfl⟩
  | nets a b =>
    simp only [load, Option.bind_eq_some_iff, Option.map_eq_some_iff] at hl
    obtain ⟨a', _, b', _, rfl⟩ := hl
    simp [expand] at hy
  | dni xs =>
    simp only [load, Option.some.injEq] at hl
    subst hl
    exact ⟨y, .dni hy, Or.inl rfl⟩
  | group xs =>
    simp only [load, Option.some.injEq] at hl
    subst hl
    simp [expand] at hy
  | other =>
    simp only [load, Option.some.injEq] at hl
    subst hl
    simp [expand] at hy

theorem upper_only {c : Con} {y : Name} (hy : y ∈ expand (upper c)) : ∃ x ∈ expand c, y = x ∨ y = up x := by
  cases c with
  | listed xs => obtain ⟨x, hx, rfl⟩ := List.mem_map.1 hy; exact ⟨x, hx, Or.inr rfl⟩
  | inOrder xs => obtain ⟨x, hx, rfl⟩ := List.mem_map.1 hy; exact ⟨x, hx, Or.inr rfl⟩
  | dni xs => obtain ⟨x, hx, rfl⟩ := List.mem_map.1 hy; exact ⟨x, hx, Or.inr rfl⟩
  | pairs ps =>
    obtain ⟨p, hp, x, hx, rfl⟩ := flatten_up hy
    exact ⟨x, List.mem_flatten.2 ⟨p, hp, hx⟩, Or.inr rfl⟩
  | boundary xs => exact ⟨y, hy, Or.inl rfl⟩
  | floorplan rs o s => exact ⟨y, hy, Or.inl rfl⟩
  | same xs => simp [upper, expand] at hy
  | nets a b => simp [upper, expand] at hy
  | group xs => simp [upper, expand] at hy
  | other => simp [upper, expand] at hy

theorem mem_several {y : Name} {xs : List Name} (h : y ∈ several xs) : y ∈ xs := by
  unfold several at h
  split_ifs at h
  · exact h
  · simp at h

theorem pinInst_some {p y : Name} (h : pinInst p = some y) : '/' ∉ y ∧ ∃ z, p = y ++ '/' :: z := by
  unfold pinInst at h
  split_ifs at h with hm
  rw [← Option.some.inj h]
  clear h
  induction p with
  | nil => simp at hm
  | cons c p ih =>
    by_cases hc : c = '/'
    · subst hc
      exact ⟨by simp, p, by simp⟩
    · obtain ⟨h1, z, h2⟩ := ih (by
        rcases List.mem_cons.1 hm with e | hm
        · exact absurd e.symm hc
        · exact hm)
      have ht : (c :: p).takeWhile (fun c => decide (c ≠ '/')) = c :: p.takeWhile (fun c => decide (c ≠ '/')) := by
        simp [hc]
      rw [ht]
      refine ⟨?_, z, ?_⟩
      · intro h3
        rcases List.mem_cons.1 h3 with e | h3
        · exact hc e.symm
        · exact h1 h3
      · rw [List.cons_append, ← h2]

theorem pin_up {p y : Name} (h : pinInst (up p) = some y) : ∃ x z, '/' ∉ x ∧ p = x ++ '/' :: z ∧ y = up x := by
  obtain ⟨h1, z, h2⟩ := pinInst_some h
  unfold up at h2
  rw [List.map_eq_append_iff] at h2
  obtain ⟨u, v, rfl, hu, hv⟩ := h2
  rw [List.map_eq_cons_iff] at hv
  obtain ⟨a, w, rfl, ha, _⟩ := hv
  rw [slash_iff] at ha
  subst ha
  refine ⟨u, w, fun hc => h1 ?_, rfl, hu.symm⟩
  rw [← hu]
  exact List.mem_map.2 ⟨'/', hc, by decide⟩

theorem names_only {c c' : Con} (hl : load insts c = some c') {l : List Name} (hn : names (upper c') = some l) {y : Name} (hy : y ∈ l) :
    ∃ x, Mentions c x ∧ (y = x ∨ y = up x) := by
  have viaExpand : ∀ {z}, y = z ∨ y = up z → z ∈ expand c' → ∃ x, Mentions c x ∧ (y = x ∨ y = up x) := by
    intro z hz hze
    obtain ⟨x, hx, h⟩ := expand_only hl hze
    refine ⟨x, hx, ?_⟩
    rcases hz with rfl | rfl <;> rcases h with rfl | rfl
    · exact Or.inl rfl
    · exact Or.inr rfl
    · exact Or.inr rfl
    · rw [up_up]; exact Or.inr rfl
  cases c with
  | listed xs =>
    simp only [load, Option.map_eq_some_iff] at hl
    obtain ⟨ys, h, rfl⟩ := hl
    simp only [upper, names, Option.some.injEq] at hn
    subst hn
    obtain ⟨x, hx, rfl⟩ := List.mem_map.1 (mem_several hy)
    exact viaExpand (Or.inr rfl) hx
  | inOrder xs =>
    simp only [load, Option.some.injEq] at hl
    subst hl
    simp only [upper, names, Option.some.injEq] at hn
    subst hn
    obtain ⟨x, hx, rfl⟩ := List.mem_map.1 (mem_several hy)
    exact ⟨x, .inOrder hx, Or.inr rfl⟩
  | boundary xs =>
    simp only [load, Option.map_eq_some_iff] at hl
    obtain ⟨ys, h, rfl⟩ := hl
    simp only [upper, names, Option.some.injEq] at hn
    subst hn
    simp at hy
  | floorplan rs o s =>
    simp only [load, Option.map_eq_some_iff] at hl
    obtain ⟨ys, h, rfl⟩ := hl
    simp only [upper, names, Option.some.injEq] at hn
    subst hn
    simp at hy
  | same xs =>
    simp only [load, Option.map_eq_some_iff] at hl
    obtain ⟨ys, h, rfl⟩ := hl
    rw [validate_some h] at hn
    simp only [upper, names, Option.some.injEq] at hn
    subst hn
    obtain ⟨x, hx, rfl⟩ := List.mem_map.1 (mem_several hy)
    obtain ⟨z, hz, rfl⟩ := List.mem_map.1 hx
    exact ⟨z, .same hz, Or.inr (up_up z)⟩
  | pairs ps =>
    simp only [load, Option.map_eq_some_iff] at hl
    obtain ⟨ys, h, rfl⟩ := hl
    simp only [upper, names, Option.some.injEq] at hn
    subst hn
    obtain ⟨p, hp, x, hx, rfl⟩ := flatten_up hy
    exact viaExpand (Or.inr rfl) (List.mem_flatten.2 ⟨p, hp, hx⟩)
  | nets a b =>
    simp only [load, Option.bind_eq_some_iff, Option.map_eq_some_iff] at hl
    obtain ⟨a', ha, b', hb, rfl⟩ := hl
    cases a with
    | none =>
      simp only [validateOpt, Option.some.injEq] at ha
      subst ha
      simp only [upper, names, Option.some.injEq] at hn
      subst hn
      simp at hy
    | some ps =>
      simp only [validateOpt, Option.map_eq_some_iff] at ha
      obtain ⟨ps', hp, rfl⟩ := ha
      rw [validatePins_some hp] at hn
      cases ps with
      | nil =>
        simp only [List.map_nil, upper, names, Option.some.injEq] at hn
        subst hn
        simp at hy
      | cons p ps =>
        simp only [List.map_cons, upper, names, Option.map_eq_some_iff] at hn
        obtain ⟨qs', rfl, rfl⟩ := hn
        cases b with
        | none => simp [validateOpt] at hb
        | some qs =>
          simp only [validateOpt, Option.map_eq_some_iff, Option.some.injEq] at hb
          obtain ⟨qs2, hq, rfl⟩ := hb
          rw [validatePins_some hq, List.mem_filterMap] at hy
          obtain ⟨q, hq1, hq2⟩ := hy
          have : q ∈ (p :: ps).map up ∨ q ∈ qs.map up := by
            rw [List.map_cons]
            exact List.mem_append.1 hq1
          rcases this with h3 | h3
          · obtain ⟨r, hr, rfl⟩ := List.mem_map.1 h3
            obtain ⟨x, z, h4, rfl, h6⟩ := pin_up hq2
            exact ⟨x, .nets1 h4 hr, Or.inr h6⟩
          · obtain ⟨r, hr, rfl⟩ := List.mem_map.1 h3
            obtain ⟨x, z, h4, rfl, h6⟩ := pin_up hq2
            exact ⟨x, .nets2 h4 hr, Or.inr h6⟩
  | dni xs =>
    simp only [load, Option.some.injEq] at hl
    subst hl
    simp only [upper, names, Option.some.injEq] at hn
    subst hn
    obtain ⟨x, hx, rfl⟩ := List.mem_map.1 (mem_several hy)
    exact ⟨x, .dni hx, Or.inr rfl⟩
  | group xs =>
    simp only [load, Option.some.injEq] at hl
    subst hl
    simp only [upper, names, Option.some.injEq] at hn
    subst hn
    simp at hy
  | other =>
    simp only [load, Option.some.injEq] at hl
    subst hl
    simp only [upper, names, Option.some.injEq] at hn
    subst hn
    simp at hy

theorem lookup_given {c : Con} (h : c ∈ (combined.lookup name).getD []) : ∃ e ∈ combined, e.1 = name ∧ c ∈ e.2 := by
  induction combined with
  | nil => simp at h
  | cons a l ih =>
    rw [List.lookup_cons] at h
    by_cases hk : name = a.1
    · subst hk
      simp at h
      exact ⟨a, by simp, rfl, h⟩
    · rw [beq_eq_false_iff_ne.2 hk] at h
      obtain ⟨e, he, h2⟩ := ih h
      exact ⟨e, by simp [he], h2⟩

/-- **C88**: no other instance is kept out. -/
theorem C88_only (h : annotate insts combined files name = some cs) (y : Name) (hy : y ∈ skip cs) :
    ∃ c x, Given combined files name c ∧ Mentions c x ∧ (y = x ∨ y = up x) := by
  unfold annotate at h
  rw [Option.bind_eq_some_iff] at h
  obtain ⟨c1, h1, h2⟩ := h
  cases hfile : file files name with
  | none =>
    rw [hfile] at h2
    simp only [Option.some.injEq] at h2
    subst h2
    obtain ⟨c', hc', hye⟩ := mem_skip.1 hy
    obtain ⟨c, hc, hl⟩ := (mapM_mem h1).2 c' hc'
    obtain ⟨x, hx⟩ := expand_only hl hye
    exact ⟨c, x, Or.inl (lookup_given hc), hx⟩
  | some fc =>
    rw [hfile] at h2
    simp only [Option.bind_eq_some_iff] at h2
    obtain ⟨c2, h3, h4⟩ := h2
    unfold file at hfile
    rw [Option.map_eq_some_iff] at hfile
    obtain ⟨f0, hf0, rfl⟩ := hfile
    have hf0m := List.mem_of_find?_eq_some hf0
    have hf0n : up f0.1 = name ++ ".CONST".toList := by simpa using List.find?_some hf0
    have hgiven : ∀ c' ∈ c1 ++ c2, ∃ c, Given combined files name c ∧ load insts c = some c' := by
      intro c' hc'
      rcases List.mem_append.1 hc' with hc' | hc'
      · obtain ⟨c, hc, hl⟩ := (mapM_mem h1).2 c' hc'
        exact ⟨c, Or.inl (lookup_given hc), hl⟩
      · obtain ⟨c, hc, hl⟩ := (mapM_mem h3).2 c' hc'
        exact ⟨c, Or.inr ⟨f0, hf0m, hf0n, hc⟩, hl⟩
    obtain ⟨ls, hls, hsk⟩ := protect_skip h4
    rcases (hsk y).1 hy with hy | hy
    · obtain ⟨c3, hc3, hye⟩ := mem_skip.1 hy
      obtain ⟨c', hc', rfl⟩ := List.mem_map.1 hc3
      obtain ⟨c, hg, hl⟩ := hgiven c' hc'
      obtain ⟨z, hz, hyz⟩ := upper_only hye
      obtain ⟨x, hx, hzx⟩ := expand_only hl hz
      refine ⟨c, x, hg, hx, ?_⟩
      rcases hyz with rfl | rfl <;> rcases hzx with rfl | rfl
      · exact Or.inl rfl
      · exact Or.inr rfl
      · exact Or.inr rfl
      · rw [up_up]; exact Or.inr rfl
    · obtain ⟨l, hl1, hyl⟩ := List.mem_flatten.1 hy
      obtain ⟨c3, hc3, hn⟩ := (mapM_mem hls).2 l hl1
      obtain ⟨c', hc', rfl⟩ := List.mem_map.1 hc3
      obtain ⟨c, hg, hl⟩ := hgiven c' hc'
      obtain ⟨x, hx⟩ := names_only hl hn hyl
      exact ⟨c, x, hg, hx⟩

abbrev nm (s : String) : Name := s.toList

example : annotate [nm "M1", nm "M2", nm "M3", nm "M4"] [(nm "OTA", [.same [nm "m1", nm "M2"]])]
    [(nm "Ota.const", [.inOrder [nm "m3", nm "m1"], .nets (some [nm "m4/D"]) (some [nm "M1/D"])])] (nm "OTA") =
    some [.same [nm "M1", nm "M2"], .inOrder [nm "M3", nm "M1"], .nets (some [nm "M4/D"]) (some [nm "M1/D"]),
      .dni [nm "M1", nm "M2", nm "M3", nm "M4"]] := by decide +kernel

example : up (nm "ota.const") = nm "OTA" ++ ".CONST".toList := by decide +kernel

/-- **C88 is violated**: names of a `SameTemplate` in `const.json` are not kept out. -/
theorem C88_violated_combined : ∃ (insts : List Name) (combined : List (Name × List Con)) (name : Name) (cs : List Con),
    annotate insts combined [] name = some cs ∧ ¬ Protected combined [] name cs := by
  refine ⟨[nm "M1", nm "M2"], [(nm "OTA", [.same [nm "M1", nm "M2"]])], nm "OTA", [.same [nm "M1", nm "M2"]], by decide +kernel, ?_⟩
  intro h
  have := h (.same [nm "M1", nm "M2"]) (nm "M1") (Or.inl ⟨_, List.mem_singleton.2 rfl, rfl, List.mem_singleton.2 rfl⟩) (.same (by simp))
  exact absurd this (by decide +kernel)

/-- **C88 is violated**: names in lower case of an `AlignInOrder` in `const.json`, which are accepted, are not kept out. -/
theorem C88_violated_case : ∃ (insts : List Name) (combined : List (Name × List Con)) (name : Name) (cs : List Con),
    annotate insts combined [] name = some cs ∧ ¬ Protected combined [] name cs ∧ ∀ c x, Given combined [] name c → Mentions c x → up x ∈ insts := by
  refine ⟨[nm "M1", nm "M2"], [(nm "OTA", [.inOrder [nm "m1", nm "m2"]])], nm "OTA", [.inOrder [nm "m1", nm "m2"]], by decide +kernel, ?_, ?_⟩
  · intro h
    have := h (.inOrder [nm "m1", nm "m2"]) (nm "m1") (Or.inl ⟨_, List.mem_singleton.2 rfl, rfl, List.mem_singleton.2 rfl⟩) (.inOrder (by simp))
    exact absurd this (by decide +kernel)
  · rintro c x (⟨e, he, _, hc⟩ | ⟨f, hf, _⟩) hm
    · rw [List.mem_singleton] at he
      subst he
      rw [List.mem_singleton] at hc
      subst hc
      cases hm with
      | inOrder h =>
        simp only [List.mem_cons, List.not_mem_nil, or_false] at h
        rcases h with rfl | rfl <;> decide +kernel
    · simp at hf

/-- **C88 is violated**: names of a `Floorplan` that is ordered but not symmetric are not kept out, even with a file of the design. -/
theorem C88_violated_floorplan : ∃ (insts : List Name) (files : List (Name × List Con)) (name : Name) (cs : List Con),
    annotate insts [] files name = some cs ∧ ¬ Protected [] files name cs := by
  refine ⟨[nm "M1", nm "M2"], [(nm "OTA.const", [.floorplan [[nm "M1", nm "M2"]] true false])], nm "OTA", [.floorplan [[nm "M1", nm "M2"]] true false],
    by decide +kernel, ?_⟩
  intro h
  have := h (.floorplan [[nm "M1", nm "M2"]] true false) (nm "M1") (Or.inr ⟨_, List.mem_singleton.2 rfl, by decide +kernel, List.mem_singleton.2 rfl⟩)
    (.floorplan (List.mem_singleton.2 rfl) (by simp))
  exact absurd this (by decide +kernel)

end Verif.UserCons

import Verif.Util.Sort
import Mathlib.Data.List.Dedup

/-!
# C144-C146: the order of the primitives, the output of the compiler, the capacitors that were placed

`align/compiler/read_library.py`: `order_lib` 60-74. `align/compiler/compiler.py`: `compiler_output` 108-171, `exclude_const` 174-180. `align/pnr/cap_placer.py`: `cap_placer_driver` 10-56.

Simplifications: `1 / len(x.nets)` is compared as a rational number. A constraint is its kind, its ports and the rest; files are a list of writes. The instances and pins of a module are left
out of the table. The C++ call of the capacitor placer is left out: the files it leaves are a parameter, and names of files have no line break.
-/

namespace Verif.Output

/-! ## The code -/

/-- A subcircuit of the library: the model of each element, the number of nets. -/
structure Prim where
  name : String
  models : List String
  nets : Nat
  deriving DecidableEq

/-- An entry of the library. -/
inductive Entry where
  | model (name : String)
  | sub (p : Prim)

def subs (l : List Entry) : List Prim := l.filterMap fun e => match e with
  | .sub p => some p
  | .model _ => none

/-- The keys with `reverse=True`. -/
def before (a b : Prim) : Bool :=
  decide (b.models.length < a.models.length)
    || (decide (a.models.length = b.models.length)
      && (decide (a.nets < b.nets) || (decide (a.nets = b.nets) && decide (b.models.dedup.length ≤ a.models.dedup.length))))

/-- `order_lib`; `none` is a division by zero. -/
def orderLib (l : List Entry) : Option (List Prim) :=
  if (subs l).any fun p => decide (p.nets = 0) then none else some (pySort before (subs l))

structure Const where
  kind : String
  ports : List String
  rest : Nat
  deriving DecidableEq

structure Ckt where
  name : String
  consts : List Const

/-- `exclude_const`. -/
def excluded : List String := ["DoNotIdentify", "GroupBlocks", "DoNotUseLib", "ConfigureCompiler"]
def exclude (cs : List Const) : List Const := (cs.filter fun c => decide (c.kind ∈ excluded)).foldl (fun l c => l.erase c) cs

structure Out where
  files : List (String × List Const)
  modules : List (String × List Const)
  globals : List (String × String)

def ported (k : String) (cs : List Const) : List String := cs.flatMap fun c => if c.kind = k then c.ports else []

/-- The loop over the subcircuits (130-141) and the power grid (143-163). `top` has its constraints excluded in the loop, unless it has a generator. -/
def output (lower : String → String) (cks : List Ckt) (top : Ckt) : Out :=
  let used := cks.filter fun c => !c.consts.any fun k => decide (k.kind = "Generator")
  let t := if top.consts.any fun k => decide (k.kind = "Generator") then top.consts else exclude top.consts
  ⟨used.map fun c => (lower c.name, c.consts), used.map fun c => (c.name, exclude c.consts),
    match ported "GroundPorts" t, ported "PowerPorts" t with
    | g :: _, p :: _ => [("supply0", g), ("supply1", p)]
    | _, _ => []⟩

def SEP : List Char := ['_', 'A', 's', 'p', 'e', 'c', 't', 'R', 'a', 't', 'i', 'o', '_']

/-- `re.match('^(.*)_AspectRatio_(.*)$')`: the first group is as long as can be. -/
def lastSplit : List Char → Option (List Char × List Char)
  | [] => none
  | c :: cs =>
    match lastSplit cs with
    | some (a, b) => some (c :: a, b)
    | none => if SEP.isPrefixOf (c :: cs) then some ([], (c :: cs).drop SEP.length) else none

structure File where
  stem : List Char
  suffixes : List (List Char)

structure Module where
  instances : List (List Char × List Char)
  /-- Kind, and name in capitals. -/
  consts : List (String × List Char)

def lookup (d : List (List Char × List Char)) (k : List Char) : Option (List Char) := (d.reverse.find? fun p => decide (p.1 = k)).map (·.2)

/-- `required_caps` (23-28). -/
def required (ms : List Module) : Option (List (List Char)) :=
  (ms.flatMap fun m => (m.consts.filter fun c => decide (c.1 = "GroupCaps")).map fun c => lookup m.instances c.2).mapM id

/-- `cap_map` (35-50). -/
def capMap (fs : List File) : List (List Char × List Char) :=
  fs.filterMap fun f => if f.suffixes = [['.', 'l', 'e', 'f']] then (lastSplit f.stem).map fun p => (p.1, f.stem) else none

/-- `cap_placer_driver` after the placer. -/
def driver (ms : List Module) (fs : List File) : Option (List (List Char × List Char)) :=
  (required ms).bind fun r =>
    if (∀ x ∈ r, x ∈ (capMap fs).map Prod.fst) ∧ ∀ x ∈ (capMap fs).map Prod.fst, x ∈ r then some (capMap fs) else none

/-! ## What the properties say -/

/-- The list has `n` different members. -/
def Different (l : List String) (n : Nat) : Prop := ∃ d : List String, d.Nodup ∧ (∀ x, x ∈ d ↔ x ∈ l) ∧ d.length = n

/-- The subcircuits of the library. -/
def circuits : List Entry → List Prim
  | [] => []
  | .model _ :: l => circuits l
  | .sub p :: l => p :: circuits l

/-- More elements; or as many and fewer nets; or as many of both and at least as many different models. -/
def Comes (a b : Prim) : Prop :=
  a.models.length > b.models.length ∨ (a.models.length = b.models.length
    ∧ (a.nets < b.nets ∨ (a.nets = b.nets ∧ ∃ m n, Different a.models m ∧ Different b.models n ∧ n ≤ m)))

/-- Neither has more. -/
def Same (a b : Prim) : Prop := Comes a b ∧ Comes b a

/-- The first port of a constraint of the kind. -/
def First (k : String) (cs : List Const) (p : String) : Prop :=
  ∃ pre c post ps, cs = pre ++ c :: post ∧ c.kind = k ∧ c.ports = p :: ps ∧ ∀ d ∈ pre, d.kind = k → d.ports = []

/-! ## Proofs -/

theorem subs_eq (l : List Entry) : subs l = circuits l := by
  induction l with
  | nil => rfl
  | cons e l ih =>
    cases e with
    | model n => exact ih
    | sub p => exact congrArg (p :: ·) ih

theorem different_unique {l : List String} {m n : Nat} (h : Different l m) (g : Different l n) : m = n := by
  obtain ⟨d, d1, d2, rfl⟩ := h
  obtain ⟨e, e1, e2, rfl⟩ := g
  exact ((List.perm_ext_iff_of_nodup d1 e1).2 fun x => (d2 x).trans (e2 x).symm).length_eq

theorem different_dedup (l : List String) : Different l l.dedup.length := ⟨l.dedup, List.nodup_dedup l, fun _ => List.mem_dedup, rfl⟩

theorem before_iff {a b : Prim} : before a b = true ↔ Comes a b := by
  unfold before Comes
  simp only [Bool.or_eq_true, Bool.and_eq_true, decide_eq_true_eq]
  have : (b.models.dedup.length ≤ a.models.dedup.length) ↔ ∃ m n, Different a.models m ∧ Different b.models n ∧ n ≤ m := by
    constructor
    · intro h
      exact ⟨_, _, different_dedup _, different_dedup _, h⟩
    · rintro ⟨m, n, h1, h2, h3⟩
      rw [different_unique (different_dedup _) h1, different_unique (different_dedup _) h2]
      exact h3
  rw [this]

theorem before_trans (a b c : Prim) (h : before a b = true) (g : before b c = true) : before a c = true := by
  unfold before at *
  simp only [Bool.or_eq_true, Bool.and_eq_true, decide_eq_true_eq] at *
  omega

theorem before_total (a b : Prim) : (before a b || before b a) = true := by
  unfold before
  simp only [Bool.or_eq_true, Bool.and_eq_true, decide_eq_true_eq]
  omega

theorem insert_filter (p : Prim → Bool) (a : Prim) (hp : ∀ b, p b = true → before a b = true) (ha : p a = true) (l : List Prim) :
    (pyInsert before a l).filter p = a :: l.filter p := by
  induction l with
  | nil => simp [pyInsert, ha]
  | cons b l ih =>
    unfold pyInsert
    split
    · rw [List.filter_cons, if_pos ha]
    · rename_i hn
      have : p b = false := by
        cases hb : p b with
        | false => rfl
        | true => exact absurd (hp b hb) hn
      rw [List.filter_cons, this, List.filter_cons, this]
      simpa using ih

theorem insert_filter_out (p : Prim → Bool) (a : Prim) (ha : p a = false) (l : List Prim) : (pyInsert before a l).filter p = l.filter p := by
  induction l with
  | nil => simp [pyInsert, ha]
  | cons b l ih =>
    unfold pyInsert
    split
    · rw [List.filter_cons, ha]
      simp
    · rw [List.filter_cons, ih, List.filter_cons]

theorem sort_filter (p : Prim → Bool) (hp : ∀ a b, p a = true → p b = true → before a b = true) (l : List Prim) : (pySort before l).filter p = l.filter p := by
  induction l with
  | nil => rfl
  | cons a l ih =>
    unfold pySort
    cases ha : p a with
    | false => rw [insert_filter_out p a ha, ih, List.filter_cons, ha]; simp
    | true => rw [insert_filter p a (fun b hb => hp a b ha hb) ha, ih, List.filter_cons, if_pos ha]

/-! ## The theorems -/

/-- C144: the primitives that are tried are the subcircuits of the library, those with more elements first, then those with fewer nets, then those with more different models. -/
theorem C144_order (l : List Entry) (h : ∀ p, Entry.sub p ∈ l → p.nets ≠ 0) :
    ∃ r, orderLib l = some r ∧ (∀ p, r.count p = (circuits l).count p) ∧ (∀ p, p ∈ r ↔ Entry.sub p ∈ l) ∧ r.Pairwise Comes := by
  have hm : ∀ p, p ∈ subs l ↔ Entry.sub p ∈ l := by
    intro p
    unfold subs
    rw [List.mem_filterMap]
    constructor
    · rintro ⟨e, he, h⟩
      cases e with
      | model n => simp at h
      | sub q =>
        simp only [Option.some.injEq] at h
        subst h
        exact he
    · intro h
      exact ⟨_, h, rfl⟩
  refine ⟨pySort before (subs l), ?_, fun p => by rw [← subs_eq]; exact (pySort_perm _).count_eq p, fun p => mem_pySort.trans (hm p), ?_⟩
  · unfold orderLib
    rw [if_neg]
    intro hc
    obtain ⟨p, hp, h0⟩ := List.any_eq_true.1 hc
    exact h p ((hm p).1 hp) (of_decide_eq_true h0)
  · exact (pySort_pairwise before_trans before_total _).imp fun h => before_iff.1 h

/-- C144: subcircuits that are the same in this respect stay in the order of the library. -/
theorem C144_ties (l : List Entry) (r : List Prim) (h : orderLib l = some r) (a b : Prim) (hs : Same a b) :
    r.filter (fun p => decide (p = a) || decide (p = b)) = (circuits l).filter fun p => decide (p = a) || decide (p = b) := by
  unfold orderLib at h
  split at h
  · simp at h
  · simp only [Option.some.injEq] at h
    subst h
    have haa : ∀ x y, Comes x y → Comes y x → Comes x x := fun x y h1 h2 => before_iff.1 (before_trans _ _ _ (before_iff.2 h1) (before_iff.2 h2))
    rw [sort_filter, subs_eq]
    · intro x y hx hy
      simp only [Bool.or_eq_true, decide_eq_true_eq] at hx hy
      apply before_iff.2
      rcases hx with rfl | rfl <;> rcases hy with rfl | rfl
      · exact haa _ _ hs.1 hs.2
      · exact hs.1
      · exact hs.2
      · exact haa _ _ hs.2 hs.1

/-- C144 stops if a subcircuit has no nets. -/
theorem C144_stops (l : List Entry) (p : Prim) (hp : Entry.sub p ∈ l) (h0 : p.nets = 0) : orderLib l = none := by
  unfold orderLib
  rw [if_pos]
  exact List.any_eq_true.2 ⟨p, List.mem_filterMap.2 ⟨_, hp, rfl⟩, decide_eq_true h0⟩

theorem foldl_erase_keep (c : Const) : ∀ (rs l : List Const), c ∉ rs → rs.foldl (fun l c => l.erase c) (c :: l) = c :: rs.foldl (fun l c => l.erase c) l := by
  intro rs
  induction rs with
  | nil => intro l _; rfl
  | cons r rs ih =>
    intro l h
    simp only [List.mem_cons, not_or] at h
    rw [List.foldl_cons, List.foldl_cons, List.erase_cons_tail (by simpa using h.1), ih _ h.2]

theorem exclude_eq (p : Const → Bool) (cs : List Const) : (cs.filter p).foldl (fun l c => l.erase c) cs = cs.filter fun c => !p c := by
  induction cs with
  | nil => rfl
  | cons c cs ih =>
    cases hc : p c with
    | true =>
      rw [List.filter_cons, if_pos hc, List.foldl_cons, List.erase_cons_head, ih, List.filter_cons, hc]
      rfl
    | false =>
      rw [List.filter_cons, hc, if_neg (by simp), foldl_erase_keep c _ _ (by simp [hc]), ih, List.filter_cons, hc]
      rfl

theorem exclude_spec (cs : List Const) : exclude cs = cs.filter fun c => c.kind ≠ "DoNotIdentify" ∧ c.kind ≠ "GroupBlocks" ∧ c.kind ≠ "DoNotUseLib" ∧ c.kind ≠ "ConfigureCompiler" := by
  unfold exclude
  rw [exclude_eq]
  apply List.filter_congr
  intro c _
  unfold excluded
  simp

theorem first_ported {k : String} {cs : List Const} {p : String} {ps : List String} (h : ported k cs = p :: ps) : First k cs p := by
  induction cs with
  | nil => simp [ported] at h
  | cons c cs ih =>
    unfold ported at h
    rw [List.flatMap_cons] at h
    by_cases hk : c.kind = k
    · rw [if_pos hk] at h
      cases hp : c.ports with
      | nil =>
        rw [hp, List.nil_append] at h
        obtain ⟨pre, d, post, qs, e, h1, h2, h3⟩ := ih h
        refine ⟨c :: pre, d, post, qs, by rw [e]; rfl, h1, h2, fun x hx hxk => ?_⟩
        rcases List.mem_cons.1 hx with rfl | hx
        · exact hp
        · exact h3 x hx hxk
      | cons q qs =>
        rw [hp, List.cons_append] at h
        simp only [List.cons.injEq] at h
        exact ⟨[], c, cs, qs, rfl, hk, by rw [hp, h.1], by simp⟩
    · rw [if_neg hk, List.nil_append] at h
      obtain ⟨pre, d, post, qs, e, h1, h2, h3⟩ := ih h
      refine ⟨c :: pre, d, post, qs, by rw [e]; rfl, h1, h2, fun x hx hxk => ?_⟩
      rcases List.mem_cons.1 hx with rfl | hx
      · exact absurd hxk hk
      · exact h3 x hx hxk

theorem ported_ne {k : String} {cs : List Const} {p : String} (h : First k cs p) : ported k cs ≠ [] := by
  obtain ⟨pre, c, post, ps, e, h1, h2, -⟩ := h
  have : p ∈ ported k cs := List.mem_flatMap.2 ⟨c, by rw [e]; simp, by rw [if_pos h1, h2]; simp⟩
  exact List.ne_nil_of_mem this

theorem first_unique {k : String} {cs : List Const} {p q : String} (h : First k cs p) (g : First k cs q) : p = q := by
  have key : ∀ (pre pre' : List Const) (c c' : Const) (post post' : List Const), pre ++ c :: post = pre' ++ c' :: post' → c.kind = k → c'.kind = k → c.ports ≠ [] → c'.ports ≠ [] →
      (∀ d ∈ pre, d.kind = k → d.ports = []) → (∀ d ∈ pre', d.kind = k → d.ports = []) → c = c' := by
    intro pre
    induction pre with
    | nil =>
      intro pre' c c' post post' e h1 _ h3 _ _ h6
      cases pre' with
      | nil => simp only [List.nil_append, List.cons.injEq] at e; exact e.1
      | cons x pre' =>
        simp only [List.nil_append, List.cons_append, List.cons.injEq] at e
        exact absurd (h6 x List.mem_cons_self (e.1 ▸ h1)) (e.1 ▸ h3)
    | cons y pre ih =>
      intro pre' c c' post post' e h1 h2 h3 h4 h5 h6
      cases pre' with
      | nil =>
        simp only [List.nil_append, List.cons_append, List.cons.injEq] at e
        exact absurd (h5 y List.mem_cons_self (e.1 ▸ h2)) (e.1 ▸ h4)
      | cons x pre' =>
        simp only [List.cons_append, List.cons.injEq] at e
        exact ih pre' c c' post post' e.2 h1 h2 h3 h4 (fun d hd => h5 d (List.mem_cons_of_mem _ hd)) fun d hd => h6 d (List.mem_cons_of_mem _ hd)
  obtain ⟨pre, c, post, ps, e, h1, h2, h3⟩ := h
  obtain ⟨pre', c', post', ps', e', h1', h2', h3'⟩ := g
  have := key pre pre' c c' post post' (e.symm.trans e') h1 h1' (by rw [h2]; simp) (by rw [h2']; simp) h3 h3'
  subst this
  rw [h2] at h2'
  simp only [List.cons.injEq] at h2'
  exact h2'.1

/-- Whether the subcircuit is drawn by a generator. -/
def Generated (c : Ckt) : Prop := ∃ k ∈ c.consts, k.kind = "Generator"

instance (c : Ckt) : Decidable (Generated c) := inferInstanceAs (Decidable (∃ k ∈ c.consts, k.kind = "Generator"))

theorem not_any_iff (c : Ckt) : (!c.consts.any fun k => decide (k.kind = "Generator")) = decide (¬Generated c) := by
  cases h : c.consts.any fun k => decide (k.kind = "Generator") with
  | true =>
    obtain ⟨k, hk, e⟩ := List.any_eq_true.1 h
    have : Generated c := ⟨k, hk, of_decide_eq_true e⟩
    simp [this]
  | false =>
    have : ¬Generated c := by
      rintro ⟨k, hk, e⟩
      have := List.any_eq_false.1 h k hk
      simp [e] at this
    simp [this]

/-- C145: the modules are the subcircuits without a generator, in order, with the constraints that are not for the compiler only; and each has a file with all its constraints,
if names differ in small letters. -/
theorem C145_modules (lower : String → String) (cks : List Ckt) (top : Ckt) :
    (output lower cks top).modules = (cks.filter fun c => decide (¬Generated c)).map (fun c =>
        (c.name, c.consts.filter fun k => k.kind ≠ "DoNotIdentify" ∧ k.kind ≠ "GroupBlocks" ∧ k.kind ≠ "DoNotUseLib" ∧ k.kind ≠ "ConfigureCompiler"))
      ∧ ((cks.map fun c => lower c.name).Nodup → ∀ c ∈ cks, ¬Generated c → (lower c.name, c.consts) ∈ (output lower cks top).files
        ∧ ∀ cs, (lower c.name, cs) ∈ (output lower cks top).files → cs = c.consts) := by
  unfold output
  simp only [not_any_iff]
  refine ⟨?_, fun hn c hc hg => ⟨List.mem_map.2 ⟨c, List.mem_filter.2 ⟨hc, by simpa using hg⟩, rfl⟩, fun cs h => ?_⟩⟩
  · apply List.map_congr_left
    intro c _
    rw [exclude_spec]
  · obtain ⟨d, hd, e⟩ := List.mem_map.1 h
    simp only [Prod.mk.injEq] at e
    have hd' := (List.mem_filter.1 hd).1
    have : d = c := List.inj_on_of_nodup_map hn hd' hc e.1
    rw [← e.2, this]

theorem ported_filter {k : String} {cs : List Const} (f : Const → Bool) (hf : ∀ c, c.kind = k → f c = true) : ported k (cs.filter f) = ported k cs := by
  induction cs with
  | nil => rfl
  | cons c cs ih =>
    by_cases hk : c.kind = k
    · rw [List.filter_cons, if_pos (hf c hk)]
      unfold ported at *
      rw [List.flatMap_cons, List.flatMap_cons, ih]
    · unfold ported at *
      rw [List.flatMap_cons, if_neg hk, List.nil_append, ← ih, List.filter_cons]
      split
      · rw [List.flatMap_cons, if_neg hk, List.nil_append]
      · rfl

/-- C145: the power grid has the first ground and the first power port of the top, in this order, and is left out if one of them is missing. -/
theorem C145_grid (lower : String → String) (cks : List Ckt) (top : Ckt) :
    (∀ g p, First "GroundPorts" top.consts g → First "PowerPorts" top.consts p → (output lower cks top).globals = [("supply0", g), ("supply1", p)])
      ∧ (((¬∃ g, First "GroundPorts" top.consts g) ∨ ¬∃ p, First "PowerPorts" top.consts p) → (output lower cks top).globals = []) := by
  have ht : ∀ k, k ≠ "DoNotIdentify" ∧ k ≠ "GroupBlocks" ∧ k ≠ "DoNotUseLib" ∧ k ≠ "ConfigureCompiler" →
      ported k (if top.consts.any fun k => decide (k.kind = "Generator") then top.consts else exclude top.consts) = ported k top.consts := by
    intro k hk
    split
    · rfl
    · rw [exclude_spec]
      exact ported_filter _ fun c hc => by rw [hc]; simpa using hk
  unfold output
  simp only [ht "GroundPorts" (by decide), ht "PowerPorts" (by decide)]
  constructor
  · intro g p hg hp
    cases h1 : ported "GroundPorts" top.consts with
    | nil => exact absurd h1 (ported_ne hg)
    | cons a l =>
      cases h2 : ported "PowerPorts" top.consts with
      | nil => exact absurd h2 (ported_ne hp)
      | cons b m =>
        simp only
        rw [first_unique (first_ported h1) hg, first_unique (first_ported h2) hp]
  · intro h
    cases h1 : ported "GroundPorts" top.consts with
    | nil => rfl
    | cons a l =>
      cases h2 : ported "PowerPorts" top.consts with
      | nil => rfl
      | cons b m =>
        rcases h with h | h
        · exact absurd ⟨a, first_ported h1⟩ h
        · exact absurd ⟨b, first_ported h2⟩ h

theorem lastSplit_none {x : List Char} (h : '_' ∉ x) : lastSplit x = none := by
  induction x with
  | nil => rfl
  | cons c x ih =>
    simp only [List.mem_cons, not_or] at h
    unfold lastSplit
    rw [ih h.2]
    simp only
    rw [if_neg]
    intro hp
    rw [List.isPrefixOf_iff_prefix] at hp
    obtain ⟨s, hs⟩ := hp
    simp only [SEP, List.cons_append, List.cons.injEq] at hs
    exact h.1 hs.1

theorem lastSplit_spec {s a b : List Char} (h : lastSplit s = some (a, b)) : s = a ++ SEP ++ b := by
  induction s generalizing a b with
  | nil => simp [lastSplit] at h
  | cons c s ih =>
    unfold lastSplit at h
    cases hs : lastSplit s with
    | some p =>
      obtain ⟨a', b'⟩ := p
      rw [hs] at h
      simp only [Option.some.injEq, Prod.mk.injEq] at h
      obtain ⟨rfl, rfl⟩ := h
      rw [ih hs]
      rfl
    | none =>
      rw [hs] at h
      simp only at h
      split at h
      · rename_i hp
        simp only [Option.some.injEq, Prod.mk.injEq] at h
        obtain ⟨rfl, rfl⟩ := h
        rw [List.isPrefixOf_iff_prefix] at hp
        obtain ⟨t, ht⟩ := hp
        rw [← ht, List.drop_left]
        rfl
      · simp at h

theorem lastSplit_skip {c : Char} {s : List Char} (hs : lastSplit s = none) (hc : SEP.isPrefixOf (c :: s) = false) : lastSplit (c :: s) = none := by
  unfold lastSplit
  rw [hs]
  simp [hc]

theorem not_prefix {c : Char} {s : List Char} (h : c ≠ '_') : SEP.isPrefixOf (c :: s) = false := by
  have : (('_' : Char) == c) = false := by simpa using fun e => h e.symm
  simp [SEP, List.isPrefixOf, this]

theorem lastSplit_sep {x : List Char} (h : '_' ∉ x) : lastSplit (SEP ++ x) = some ([], x) := by
  have h0 : lastSplit ('_' :: x) = none := by
    refine lastSplit_skip (lastSplit_none h) ?_
    cases hp : SEP.isPrefixOf ('_' :: x) with
    | false => rfl
    | true =>
      rw [List.isPrefixOf_iff_prefix] at hp
      obtain ⟨s, hs⟩ := hp
      simp only [SEP, List.cons_append, List.cons.injEq, true_and] at hs
      rw [← hs] at h
      simp at h
  have h1 := lastSplit_skip h0 (not_prefix (c := 'o') (by decide))
  have h2 := lastSplit_skip h1 (not_prefix (c := 'i') (by decide))
  have h3 := lastSplit_skip h2 (not_prefix (c := 't') (by decide))
  have h4 := lastSplit_skip h3 (not_prefix (c := 'a') (by decide))
  have h5 := lastSplit_skip h4 (not_prefix (c := 'R') (by decide))
  have h6 := lastSplit_skip h5 (not_prefix (c := 't') (by decide))
  have h7 := lastSplit_skip h6 (not_prefix (c := 'c') (by decide))
  have h8 := lastSplit_skip h7 (not_prefix (c := 'e') (by decide))
  have h9 := lastSplit_skip h8 (not_prefix (c := 'p') (by decide))
  have h10 := lastSplit_skip h9 (not_prefix (c := 's') (by decide))
  have h11 := lastSplit_skip h10 (not_prefix (c := 'A') (by decide))
  show lastSplit ('_' :: 'A' :: 's' :: 'p' :: 'e' :: 'c' :: 't' :: 'R' :: 'a' :: 't' :: 'i' :: 'o' :: '_' :: x) = _
  unfold lastSplit
  rw [h11]
  simp only
  rw [if_pos (by simp [SEP, List.isPrefixOf])]
  rfl

/-- C146: from the name of a file of the capacitor placer, which ends with the numbers of columns and rows, the name of the capacitor is found, whatever it is. -/
theorem C146_name (t x : List Char) (h : '_' ∉ x) : lastSplit (t ++ SEP ++ x) = some (t, x) := by
  induction t with
  | nil => simpa using lastSplit_sep h
  | cons c t ih =>
    show lastSplit (c :: (t ++ SEP ++ x)) = _
    unfold lastSplit
    rw [ih]

theorem mapM_some {α : Type} {l : List (Option α)} {r : List α} (h : l.mapM id = some r) : l = r.map some := by
  induction l generalizing r with
  | nil =>
    simp at h
    subst h
    rfl
  | cons o l ih =>
    rw [List.mapM_cons] at h
    obtain ⟨a, ha, h⟩ := Option.bind_eq_some_iff.1 h
    obtain ⟨r', hr', h⟩ := Option.bind_eq_some_iff.1 h
    simp only [id_eq] at ha
    simp only [Option.pure_def, Option.some.injEq] at h
    subst h
    rw [ha, ih hr']
    rfl

theorem mapM_of {α : Type} (l : List (Option α)) (h : ∀ o ∈ l, o.isSome = true) : ∃ r, l.mapM id = some r := by
  induction l with
  | nil => exact ⟨[], rfl⟩
  | cons o l ih =>
    obtain ⟨r, hr⟩ := ih fun x hx => h x (List.mem_cons_of_mem _ hx)
    obtain ⟨a, rfl⟩ := Option.isSome_iff_exists.1 (h o List.mem_cons_self)
    exact ⟨a :: r, by rw [List.mapM_cons, hr]; rfl⟩

/-- A capacitor array that the module asks for. -/
def Asked (ms : List Module) (t : List Char) : Prop := ∃ m ∈ ms, ∃ n, ("GroupCaps", n) ∈ m.consts ∧ (n, t) ∈ m.instances

/-- The instances of each module have different names. -/
def Names (ms : List Module) : Prop := ∀ m ∈ ms, (m.instances.map (·.1)).Nodup

theorem lookup_iff {d : List (List Char × List Char)} (h : (d.map (·.1)).Nodup) {k v : List Char} : lookup d k = some v ↔ (k, v) ∈ d := by
  unfold lookup
  constructor
  · intro e
    cases hf : d.reverse.find? fun p => decide (p.1 = k) with
    | none => rw [hf] at e; simp at e
    | some p =>
      rw [hf] at e
      have h1 := List.find?_some hf
      have h2 := List.mem_of_find?_eq_some hf
      simp only [decide_eq_true_eq] at h1
      simp only [List.mem_reverse] at h2
      obtain ⟨a, w⟩ := p
      simp only [Option.map_some, Option.some.injEq] at e h1
      subst e h1
      exact h2
  · intro hm
    cases hf : d.reverse.find? fun p => decide (p.1 = k) with
    | none =>
      have := List.find?_eq_none.1 hf (k, v) (by simpa using hm)
      simp at this
    | some p =>
      have h1 := List.find?_some hf
      have h2 := List.mem_of_find?_eq_some hf
      simp only [decide_eq_true_eq] at h1
      simp only [List.mem_reverse] at h2
      have := List.inj_on_of_nodup_map h h2 hm h1
      rw [this]
      rfl

theorem required_mem {ms : List Module} (hn : Names ms) {r : List (List Char)} (h : required ms = some r) (t : List Char) : t ∈ r ↔ Asked ms t := by
  have := mapM_some h
  have h1 : t ∈ r ↔ some t ∈ r.map some := by simp
  rw [h1, ← this, List.mem_flatMap]
  unfold Asked
  refine exists_congr fun m => and_congr_right fun hm => ?_
  rw [List.mem_map]
  constructor
  · rintro ⟨⟨k, n⟩, hc, e⟩
    obtain ⟨hc1, hc2⟩ := List.mem_filter.1 hc
    simp only [decide_eq_true_eq] at hc2
    subst hc2
    exact ⟨n, hc1, (lookup_iff (hn m hm)).1 e⟩
  · rintro ⟨n, h1, h2⟩
    exact ⟨("GroupCaps", n), List.mem_filter.2 ⟨h1, by simp⟩, (lookup_iff (hn m hm)).2 h2⟩

/-- C146: if the placement of capacitors ends well, the layouts it gives are files of capacitors that were asked for, and there is one for each. -/
theorem C146_caps {ms : List Module} (hn : Names ms) {fs : List File} {r : List (List Char × List Char)} (h : driver ms fs = some r) :
    (∀ t, Asked ms t → ∃ s, (t, s) ∈ r) ∧ ∀ t s, (t, s) ∈ r → Asked ms t ∧ (∃ x, s = t ++ SEP ++ x) ∧ ∃ f ∈ fs, f.stem = s ∧ f.suffixes = [['.', 'l', 'e', 'f']] := by
  unfold driver at h
  obtain ⟨q, hq, h⟩ := Option.bind_eq_some_iff.1 h
  split at h
  · rename_i hc
    simp only [Option.some.injEq] at h
    subst h
    refine ⟨fun t ht => ?_, fun t s hts => ⟨?_, ?_⟩⟩
    · obtain ⟨p, hp, e⟩ := List.mem_map.1 (hc.1 t ((required_mem hn hq t).2 ht))
      exact ⟨p.2, by rw [← e]; exact hp⟩
    · exact (required_mem hn hq t).1 (hc.2 t (List.mem_map.2 ⟨_, hts, rfl⟩))
    · obtain ⟨f, hf, e⟩ := List.mem_filterMap.1 hts
      split at e
      · rename_i hsuf
        obtain ⟨p, hp, e⟩ := Option.map_eq_some_iff.1 e
        simp only [Prod.mk.injEq] at e
        obtain ⟨e1, e2⟩ := e
        refine ⟨⟨p.2, ?_⟩, f, hf, e2, hsuf⟩
        rw [← e2, ← e1]
        exact lastSplit_spec hp
      · simp at e
  · simp at h

/-- C146: it ends well if each array that is asked for is an instance, the placer left a file for each of them, and all its files are of them. -/
theorem C146_ends {ms : List Module} (hn : Names ms) {fs : List File} (h1 : ∀ m ∈ ms, ∀ n, ("GroupCaps", n) ∈ m.consts → ∃ t, (n, t) ∈ m.instances)
    (h2 : ∀ t, Asked ms t → ∃ f ∈ fs, f.suffixes = [['.', 'l', 'e', 'f']] ∧ ∃ x, '_' ∉ x ∧ f.stem = t ++ SEP ++ x)
    (h3 : ∀ f ∈ fs, f.suffixes = [['.', 'l', 'e', 'f']] → (∃ t x, f.stem = t ++ SEP ++ x) → ∃ t x, Asked ms t ∧ '_' ∉ x ∧ f.stem = t ++ SEP ++ x) : ∃ r, driver ms fs = some r := by
  have hr : ∃ r, required ms = some r := by
    apply mapM_of
    intro o ho
    obtain ⟨m, hm, ho⟩ := List.mem_flatMap.1 ho
    obtain ⟨⟨k, n⟩, hc, rfl⟩ := List.mem_map.1 ho
    obtain ⟨hc1, hc2⟩ := List.mem_filter.1 hc
    simp only [decide_eq_true_eq] at hc2
    subst hc2
    obtain ⟨t, ht⟩ := h1 m hm n hc1
    simp only [(lookup_iff (hn m hm)).2 ht]
    rfl
  obtain ⟨r, hr⟩ := hr
  refine ⟨capMap fs, ?_⟩
  unfold driver
  rw [hr, Option.bind_some, if_pos]
  constructor
  · intro t ht
    obtain ⟨f, hf, hs, x, hx, e⟩ := h2 t ((required_mem hn hr t).1 ht)
    refine List.mem_map.2 ⟨(t, f.stem), List.mem_filterMap.2 ⟨f, hf, ?_⟩, rfl⟩
    rw [if_pos hs, e, C146_name t x hx]
    rfl
  · intro t ht
    obtain ⟨p, hp, rfl⟩ := List.mem_map.1 ht
    obtain ⟨f, hf, e⟩ := List.mem_filterMap.1 hp
    split at e
    · rename_i hs
      obtain ⟨q, hq, e⟩ := Option.map_eq_some_iff.1 e
      obtain ⟨t', x, ha, hx, e'⟩ := h3 f hf hs ⟨q.1, q.2, lastSplit_spec hq⟩
      rw [e', C146_name t' x hx] at hq
      simp only [Option.some.injEq] at hq
      subst hq
      rw [← e]
      exact (required_mem hn hr _).2 ha
    · simp at e

example : orderLib [.sub ⟨"A", ["N"], 3⟩, .model "N", .sub ⟨"B", ["N", "N"], 4⟩, .sub ⟨"C", ["N", "P"], 4⟩, .sub ⟨"D", ["N", "N"], 3⟩]
    = some [⟨"D", ["N", "N"], 3⟩, ⟨"C", ["N", "P"], 4⟩, ⟨"B", ["N", "N"], 4⟩, ⟨"A", ["N"], 3⟩] := by decide +kernel
example : Same ⟨"A", ["N"], 3⟩ ⟨"E", ["P"], 3⟩ := ⟨before_iff.1 (by decide), before_iff.1 (by decide)⟩
example : (output id [⟨"X", [⟨"GroupBlocks", [], 1⟩, ⟨"Order", [], 2⟩]⟩, ⟨"Y", [⟨"Generator", [], 3⟩]⟩] ⟨"X", [⟨"PowerPorts", ["vdd"], 1⟩, ⟨"GroundPorts", ["vss"], 2⟩]⟩).modules
    = [("X", [⟨"Order", [], 2⟩])] := by decide +kernel
example : driver [⟨[(['C'], ['K', '_', '1'])], [("GroupCaps", ['C'])]⟩] [⟨['K', '_', '1'] ++ SEP ++ ['2', 'x', '3'], [['.', 'l', 'e', 'f']]⟩, ⟨['T', 'O', 'P'], [['.', 'l', 'e', 'f']]⟩]
    = some [(['K', '_', '1'], ['K', '_', '1'] ++ SEP ++ ['2', 'x', '3'])] := by decide +kernel

end Verif.Output

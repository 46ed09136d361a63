import Mathlib.Data.List.Basic
import Mathlib.Data.List.Induction
import Mathlib.Data.List.Nodup
import Mathlib.Tactic.Tauto

/-!
# C76: removing transistors that are switched off

Model of `remove_dummy_devices` (`align/compiler/preprocess.py` 372-406) and of `Graph.remove` (`align/schema/graph.py` 60-65) as far as
the elements are concerned.

Simplifications: names are in upper case, logging and the nodes of the graph are left out.  The library is given by the base of each
entry (`none` for entries without base, such as subcircuits).  A failed assertion and an attribute of `None` are `none`.
-/

namespace Verif.Pre.Off

structure Inst where
  name : String
  model : String
  pins : List (String × String)
  deriving DecidableEq

/-- The constraints that matter. -/
inductive Con
  | power (ports : List String)
  | ground (ports : List String)
  deriving DecidableEq

abbrev Lib := List (String × Option String)

/-- `_find_base_model` (375-379): follows the bases to the end.  The loop of the code has no bound; here at most `fuel` steps. -/
def rootModel (L : Lib) : Nat → String → Option String
  | 0, _ => none
  | fuel + 1, m => match L.lookup m with
    | none => none
    | some none => some m
    | some (some b) => if b = "" then some m else rootModel L fuel b

/-- The last constraint of each kind counts (381-387). -/
def ports (cs : List Con) : List String × List String :=
  cs.foldl (fun pg c => match c with
    | .power l => (l, pg.2)
    | .ground l => (pg.1, l)) ([], [])

/-- The condition of lines 396-398 for an element with the pins D, G and S (394-395). -/
def isOff (power gnd : List String) (base : String) (e : Inst) : Bool :=
  match e.pins.lookup "D", e.pins.lookup "G", e.pins.lookup "S" with
  | some d, some g, some s =>
    (decide (power ≠ []) && decide (base = "PMOS") && power.contains g) || (decide (gnd ≠ []) && decide (base = "NMOS") && gnd.contains g) ||
      (["NMOS", "PMOS"].contains base && decide (d = g) && decide (g = s))
  | _, _, _ => false

/-- The loop of lines 391-399. -/
def toRemove (L : Lib) (power gnd : List String) : List Inst → Option (List Inst)
  | [] => some []
  | e :: l => (rootModel L (L.length + 1) e.model).bind fun b => (toRemove L power gnd l).map fun r =>
    if isOff power gnd b e then e :: r else r

/-- `remove_dummy_devices` (372-406): the elements that remain. -/
def removeOff (L : Lib) (cs : List Con) (l : List Inst) : Option (List Inst) :=
  let pg := ports cs
  if pg.1 = [] ∧ pg.2 = [] then some l
  else (toRemove L pg.1 pg.2 l).bind fun r =>
    if 1 < l.length ∧ l.length = r.length then none
    else some (r.foldl (fun l e => l.erase e) l)

/-! ## What should be removed -/

/-- `b` is the model at the end of the chain of bases. -/
inductive Root (L : Lib) : String → String → Prop
  | here {m : String} : (m, none) ∈ L ∨ (m, some "") ∈ L → Root L m m
  | up {m b r : String} : (m, some b) ∈ L → b ≠ "" → Root L b r → Root L m r

/-- A port that some constraint names as power (ground). -/
def PowerPort (cs : List Con) (n : String) : Prop := ∃ l, .power l ∈ cs ∧ n ∈ l
def GroundPort (cs : List Con) (n : String) : Prop := ∃ l, .ground l ∈ cs ∧ n ∈ l

/-- A transistor that never conducts: its gate is on the supply that switches it off, or drain, gate and source are one net. -/
def Off (L : Lib) (cs : List Con) (e : Inst) : Prop :=
  ∃ d g s, ("D", d) ∈ e.pins ∧ ("G", g) ∈ e.pins ∧ ("S", s) ∈ e.pins ∧
    ((Root L e.model "PMOS" ∧ PowerPort cs g) ∨ (Root L e.model "NMOS" ∧ GroundPort cs g) ∨
      ((Root L e.model "NMOS" ∨ Root L e.model "PMOS") ∧ d = g ∧ g = s))

/-- Different names in the library, bases before the models made from them (as the schema demands). -/
structure Ordered (L : Lib) : Prop where
  names : (L.map Prod.fst).Nodup
  bases : ∃ rank : String → Nat, (∀ m b, (m, some b) ∈ L → b ≠ "" → b ∈ L.map Prod.fst ∧ rank b < rank m) ∧
    ∀ m ∈ L.map Prod.fst, rank m < L.length

/-- Different names of the elements and of the pins of each, and all models are in the library. -/
structure Good (L : Lib) (l : List Inst) : Prop where
  names : (l.map Inst.name).Nodup
  pins : ∀ e ∈ l, (e.pins.map Prod.fst).Nodup
  models : ∀ e ∈ l, e.model ∈ L.map Prod.fst

/-! ## Lookup -/

theorem lookup_mem {β : Type} {l : List (String × β)} {k : String} {v : β} (h : l.lookup k = some v) : (k, v) ∈ l := by
  induction l with
  | nil => simp at h
  | cons kv l ih =>
    rw [List.lookup_cons] at h
    split at h
    · rename_i hk
      simp only [beq_iff_eq] at hk
      cases h
      simp [hk]
    · exact List.mem_cons_of_mem _ (ih h)

theorem mem_lookup {β : Type} {l : List (String × β)} (hn : (l.map Prod.fst).Nodup) {k : String} {v : β} (h : (k, v) ∈ l) : l.lookup k = some v := by
  induction l with
  | nil => simp at h
  | cons kv l ih =>
    rw [List.map_cons, List.nodup_cons] at hn
    rcases List.mem_cons.1 h with h | h
    · subst h; simp
    · rw [List.lookup_cons]
      have : (k == kv.1) = false := by
        simp only [beq_eq_false_iff_ne]
        rintro rfl
        exact hn.1 (List.mem_map.2 ⟨_, h, rfl⟩)
      rw [this]
      exact ih hn.2 h

theorem lookup_iff {β : Type} {l : List (String × β)} (hn : (l.map Prod.fst).Nodup) {k : String} {v : β} : l.lookup k = some v ↔ (k, v) ∈ l :=
  ⟨lookup_mem, mem_lookup hn⟩

/-! ## Models -/

theorem root_of {L : Lib} : ∀ (fuel : Nat) {m b : String}, rootModel L fuel m = some b → Root L m b := by
  intro fuel
  induction fuel with
  | zero => intro m b h; simp [rootModel] at h
  | succ fuel ih =>
    intro m b h
    rw [rootModel] at h
    split at h
    · cases h
    · rename_i hl
      cases h
      exact .here (.inl (lookup_mem hl))
    · rename_i c hl
      split at h
      · rename_i hc
        cases h
        subst hc
        exact .here (.inr (lookup_mem hl))
      · rename_i hc
        exact .up (lookup_mem hl) hc (ih h)

theorem root_some {L : Lib} (hn : (L.map Prod.fst).Nodup) {rank : String → Nat} (hr : ∀ m b, (m, some b) ∈ L → b ≠ "" → b ∈ L.map Prod.fst ∧ rank b < rank m) :
    ∀ (fuel : Nat) {m : String}, m ∈ L.map Prod.fst → rank m < fuel → ∃ b, rootModel L fuel m = some b := by
  intro fuel
  induction fuel with
  | zero => intro m _ h; omega
  | succ fuel ih =>
    intro m hm hf
    obtain ⟨⟨m', v⟩, hmv, rfl⟩ := List.mem_map.1 hm
    rw [rootModel, mem_lookup hn hmv]
    cases v with
    | none => exact ⟨_, rfl⟩
    | some b =>
      dsimp only
      split
      · exact ⟨_, rfl⟩
      · rename_i hb
        obtain ⟨h1, h2⟩ := hr m' b hmv hb
        exact ih h1 (by dsimp only at hf; omega)

theorem root_unique {L : Lib} (hn : (L.map Prod.fst).Nodup) {m a b : String} (ha : Root L m a) (hb : Root L m b) : a = b := by
  induction ha with
  | here h =>
    cases hb with
    | here _ => rfl
    | up h1 h2 _ =>
      have e1 := mem_lookup hn h1
      rcases h with h | h
      · rw [mem_lookup hn h] at e1; cases e1
      · rw [mem_lookup hn h] at e1; cases e1; exact absurd rfl h2
  | up h1 h2 _ ih =>
    cases hb with
    | here h =>
      have e1 := mem_lookup hn h1
      rcases h with h | h
      · rw [mem_lookup hn h] at e1; cases e1
      · rw [mem_lookup hn h] at e1; cases e1; exact absurd rfl h2
    | up h3 h4 h5 =>
      have e1 := mem_lookup hn h1
      rw [mem_lookup hn h3] at e1
      cases e1
      exact ih h5

theorem root_exists {L : Lib} (hL : Ordered L) {m : String} (hm : m ∈ L.map Prod.fst) :
    ∃ b, rootModel L (L.length + 1) m = some b ∧ Root L m b := by
  obtain ⟨rank, h1, h2⟩ := hL.bases
  obtain ⟨b, hb⟩ := root_some hL.names h1 (L.length + 1) hm (by have := h2 m hm; omega)
  exact ⟨b, hb, root_of _ hb⟩

/-! ## The ports of the last constraint -/

theorem ports_snoc (cs : List Con) (c : Con) : ports (cs ++ [c]) = match c with
    | .power l => (l, (ports cs).2)
    | .ground l => ((ports cs).1, l) := by
  rw [ports, List.foldl_append]
  rfl

/-- At most one constraint of each kind. -/
def Single (cs : List Con) : Prop :=
  (∀ a b, .power a ∈ cs → .power b ∈ cs → a = b) ∧ ∀ a b, .ground a ∈ cs → .ground b ∈ cs → a = b

theorem ports_last (cs : List Con) :
    ((ports cs).1 = [] ∧ (∀ l, .power l ∉ cs) ∨ .power (ports cs).1 ∈ cs) ∧
    ((ports cs).2 = [] ∧ (∀ l, .ground l ∉ cs) ∨ .ground (ports cs).2 ∈ cs) := by
  induction cs using List.reverseRecOn with
  | nil => simp [ports]
  | append_singleton cs c ih =>
    rw [ports_snoc]
    cases c with
    | power l =>
      refine ⟨.inr (by simp), ?_⟩
      rcases ih.2 with ⟨h1, h2⟩ | h
      · exact .inl ⟨h1, by simp [h2]⟩
      · exact .inr (by simp [h])
    | ground l =>
      refine ⟨?_, .inr (by simp)⟩
      rcases ih.1 with ⟨h1, h2⟩ | h
      · exact .inl ⟨h1, by simp [h2]⟩
      · exact .inr (by simp [h])

theorem mem_power {cs : List Con} (h : Single cs) (n : String) : n ∈ (ports cs).1 ↔ PowerPort cs n := by
  rcases (ports_last cs).1 with ⟨h1, h2⟩ | h1
  · rw [h1]
    simp [PowerPort, h2]
  · constructor
    · exact fun hn => ⟨_, h1, hn⟩
    · rintro ⟨l, hl, hn⟩
      rw [h.1 _ _ h1 hl]; exact hn

theorem mem_ground {cs : List Con} (h : Single cs) (n : String) : n ∈ (ports cs).2 ↔ GroundPort cs n := by
  rcases (ports_last cs).2 with ⟨h1, h2⟩ | h1
  · rw [h1]
    simp [GroundPort, h2]
  · constructor
    · exact fun hn => ⟨_, h1, hn⟩
    · rintro ⟨l, hl, hn⟩
      rw [h.2 _ _ h1 hl]; exact hn

/-! ## The elements removed -/

theorem isOff_iff {L : Lib} (hL : Ordered L) {cs : List Con} (hs : Single cs) {e : Inst} (hp : (e.pins.map Prod.fst).Nodup) {b : String}
    (hb : Root L e.model b) : isOff (ports cs).1 (ports cs).2 b e = true ↔ Off L cs e := by
  have hk : ∀ c, Root L e.model c ↔ b = c := fun c => ⟨fun h => root_unique hL.names hb h, fun h => h ▸ hb⟩
  have hpow : ∀ g, (ports cs).1 ≠ [] ∧ g ∈ (ports cs).1 ↔ PowerPort cs g := fun g => by
    rw [mem_power hs]
    refine and_iff_right_of_imp fun h hc => ?_
    have := (mem_power hs g).2 h
    rw [hc] at this; simp at this
  have hgnd : ∀ g, (ports cs).2 ≠ [] ∧ g ∈ (ports cs).2 ↔ GroundPort cs g := fun g => by
    rw [mem_ground hs]
    refine and_iff_right_of_imp fun h hc => ?_
    have := (mem_ground hs g).2 h
    rw [hc] at this; simp at this
  have hmain : isOff (ports cs).1 (ports cs).2 b e = true ↔ ∃ d g s, e.pins.lookup "D" = some d ∧ e.pins.lookup "G" = some g ∧
      e.pins.lookup "S" = some s ∧ ((b = "PMOS" ∧ PowerPort cs g) ∨ (b = "NMOS" ∧ GroundPort cs g) ∨ ((b = "NMOS" ∨ b = "PMOS") ∧ d = g ∧ g = s)) := by
    unfold isOff
    split
    · rename_i d g s h1 h2 h3
      simp only [Bool.or_eq_true, Bool.and_eq_true, decide_eq_true_eq, List.contains_iff_mem, List.mem_cons, List.not_mem_nil, or_false]
      have hp := hpow g
      have hq := hgnd g
      constructor
      · intro h
        exact ⟨d, g, s, h1, h2, h3, by tauto⟩
      · rintro ⟨d', g', s', e1, e2, e3, h⟩
        rw [h1] at e1; rw [h2] at e2; rw [h3] at e3
        cases e1; cases e2; cases e3
        tauto
    · rename_i hne
      refine ⟨fun h => absurd h (by simp), ?_⟩
      rintro ⟨d, g, s, e1, e2, e3, -⟩
      exact absurd e3 (hne d g s e1 e2)
  rw [hmain, Off]
  simp only [lookup_iff hp, hk]

theorem toRemove_spec {L : Lib} (hL : Ordered L) {cs : List Con} (hs : Single cs) : ∀ {l : List Inst}, (∀ e ∈ l, (e.pins.map Prod.fst).Nodup) →
    (∀ e ∈ l, e.model ∈ L.map Prod.fst) → ∃ f : Inst → Bool, (∀ e ∈ l, f e = true ↔ Off L cs e) ∧
      toRemove L (ports cs).1 (ports cs).2 l = some (l.filter f) := by
  intro l hp hm
  refine ⟨fun e => match rootModel L (L.length + 1) e.model with
    | some b => isOff (ports cs).1 (ports cs).2 b e
    | none => false, fun e he => ?_, ?_⟩
  · obtain ⟨b, hb, hr⟩ := root_exists hL (hm e he)
    simp only [hb]
    exact isOff_iff hL hs (hp e he) hr
  · induction l with
    | nil => rfl
    | cons e l ih =>
      obtain ⟨b, hb, -⟩ := root_exists hL (hm e (by simp))
      rw [toRemove, ih (fun d hd => hp d (by simp [hd])) (fun d hd => hm d (by simp [hd])), hb, List.filter_cons]
      simp only [Option.bind_some, Option.map_some, hb]

theorem erase_filter {l : List Inst} (hn : l.Nodup) (f : Inst → Bool) :
    (l.filter f).foldl (fun l e => l.erase e) l = l.filter fun e => !f e := by
  have key : ∀ (r l : List Inst), l.Nodup → r.foldl (fun l e => l.erase e) l = l.filter fun e => !r.contains e := by
    intro r
    induction r with
    | nil => intro l _; simp
    | cons x r ih =>
      intro l hl
      rw [List.foldl_cons, ih _ (hl.erase x), hl.erase_eq_filter, List.filter_filter]
      refine List.filter_congr fun e _ => ?_
      by_cases hex : e = x <;> simp [hex]
  rw [key _ _ hn]
  refine List.filter_congr fun e he => ?_
  by_cases hf : f e <;> simp [hf, he]

/-- **C76, part.**  With at most one constraint on power and one on ground, and at least one of them: exactly the transistors that
never conduct are removed, all else remains as it is and in its order; the code fails exactly if a subcircuit with more than one
element has nothing else.  (Missing: several constraints of a kind, none at all, and a single element; see the violations.) -/
theorem C76_exact_partial {L : Lib} (hL : Ordered L) {cs : List Con} (hs : Single cs) {n : String} (hne : PowerPort cs n ∨ GroundPort cs n)
    {l : List Inst} (hg : Good L l) : ∃ f : Inst → Bool, (∀ e ∈ l, f e = true ↔ Off L cs e) ∧
      removeOff L cs l = if 1 < l.length ∧ ∀ e ∈ l, f e = true then none else some (l.filter fun e => !f e) := by
  obtain ⟨f, h1, h2⟩ := toRemove_spec hL hs hg.pins hg.models
  refine ⟨f, h1, ?_⟩
  unfold removeOff
  dsimp only
  rw [if_neg, h2]
  · simp only [Option.bind_some]
    have hlen : l.length = (l.filter f).length ↔ ∀ e ∈ l, f e = true := by
      rw [eq_comm, List.length_filter_eq_length_iff]
    rw [erase_filter (List.Nodup.of_map _ hg.names)]
    simp only [hlen]
  · rintro ⟨e1, e2⟩
    rcases hne with h | h
    · have := (mem_power hs n).2 h
      rw [e1] at this; simp at this
    · have := (mem_ground hs n).2 h
      rw [e2] at this; simp at this

/-- **C76, part.**  A subcircuit with more than one element does not become empty. -/
theorem C76_kept_partial {L : Lib} {cs : List Con} {l l' : List Inst} (h1 : 1 < l.length)
    (h : removeOff L cs l = some l') : l' ≠ [] := by
  unfold removeOff at h
  dsimp only at h
  split at h
  · cases h; intro hc; rw [hc] at h1; simp at h1
  · obtain ⟨r, hr, h⟩ := Option.bind_eq_some_iff.1 h
    split at h
    · cases h
    · rename_i hne
      cases h
      -- the elements to be removed are a sublist
      have hsub : ∀ {l r : List Inst}, toRemove L (ports cs).1 (ports cs).2 l = some r → r.Sublist l := by
        intro l
        induction l with
        | nil => intro r h; simp [toRemove] at h; simp [h]
        | cons e l ih =>
          intro r h
          rw [toRemove] at h
          obtain ⟨b, -, h⟩ := Option.bind_eq_some_iff.1 h
          obtain ⟨r', hr', h⟩ := Option.map_eq_some_iff.1 h
          split at h
          · rw [← h]; exact (ih hr').cons_cons e
          · rw [← h]; exact (ih hr').cons e
      have hs := hsub hr
      intro hnil
      have hlen : ∀ (r l : List Inst), l.length ≤ (r.foldl (fun l e => l.erase e) l).length + r.length := by
        intro r
        induction r with
        | nil => intro l; simp
        | cons x r ih =>
          intro l
          have := ih (l.erase x)
          have h2 : l.length ≤ (l.erase x).length + 1 := by
            rw [List.length_erase]; split <;> omega
          simp only [List.foldl_cons, List.length_cons]
          omega
      have := hlen r l
      rw [hnil, List.length_nil] at this
      have := hs.length_le
      exact hne ⟨h1, by omega⟩

/-! ## Examples and violations -/

def exLib : Lib := [("NMOS", none), ("PMOS", none), ("NFET", some "NMOS"), ("LVT", some "NFET"), ("CELL", none)]

theorem exLib_ordered : Ordered exLib := by
  refine ⟨by decide, fun m => if m = "NFET" then 1 else if m = "LVT" then 2 else 0, ?_, by decide⟩
  intro m b h hb
  have : ∀ kv ∈ exLib, ∀ c, kv.2 = some c → c ≠ "" → c ∈ exLib.map Prod.fst ∧
      (if c = "NFET" then 1 else if c = "LVT" then 2 else 0) < if kv.1 = "NFET" then 1 else if kv.1 = "LVT" then 2 else 0 := by
    intro kv hkv c hc
    simp only [exLib, List.mem_cons, List.not_mem_nil, or_false] at hkv
    rcases hkv with rfl | rfl | rfl | rfl | rfl <;> simp at hc <;> subst hc <;> decide
  exact this (m, some b) h b rfl hb

def exElems : List Inst := [⟨"M1", "LVT", [("D", "A"), ("G", "VSS"), ("S", "B"), ("B", "VSS")]⟩,
  ⟨"M2", "PMOS", [("D", "A"), ("G", "IN"), ("S", "VDD"), ("B", "VDD")]⟩, ⟨"M3", "PMOS", [("D", "A"), ("G", "A"), ("S", "A"), ("B", "VDD")]⟩]

theorem exElems_good : Good exLib exElems := ⟨by decide, by decide, by decide⟩

/-- The hypotheses can be met: `M1` and `M3` are removed. -/
example : removeOff exLib [.power ["VDD"], .ground ["VSS"]] exElems =
    some [⟨"M2", "PMOS", [("D", "A"), ("G", "IN"), ("S", "VDD"), ("B", "VDD")]⟩] := by decide +kernel

example : Single [.power ["VDD"], .ground ["VSS"]] := by simp [Single]

/-- **C76 is violated.**  With two constraints on power ports only the last counts: a PMOS with its gate on the first power port remains. -/
theorem C76_violated_last : ∃ (L : Lib) (cs : List Con) (l : List Inst) (e : Inst), Ordered L ∧ Good L l ∧ e ∈ l ∧ Off L cs e ∧
    removeOff L cs l = some l := by
  refine ⟨exLib, [.power ["VDDA"], .power ["VDDB"]], [⟨"M1", "PMOS", [("D", "A"), ("G", "VDDA"), ("S", "VDDA"), ("B", "VDDA")]⟩,
    ⟨"M2", "PMOS", [("D", "A"), ("G", "IN"), ("S", "VDDA"), ("B", "VDDA")]⟩],
    ⟨"M1", "PMOS", [("D", "A"), ("G", "VDDA"), ("S", "VDDA"), ("B", "VDDA")]⟩, exLib_ordered, ⟨by decide, by decide, by decide⟩, by simp, ?_, by decide +kernel⟩
  exact ⟨"A", "VDDA", "VDDA", by decide, by decide, by decide, .inl ⟨.here (.inl (by decide)), ["VDDA"], by simp, by simp⟩⟩

/-- **C76 is violated.**  Without any supply a transistor with drain, gate and source on one net remains. -/
theorem C76_violated_none : ∃ (L : Lib) (l : List Inst) (e : Inst), Ordered L ∧ Good L l ∧ e ∈ l ∧ Off L [] e ∧ removeOff L [] l = some l := by
  refine ⟨exLib, exElems, ⟨"M3", "PMOS", [("D", "A"), ("G", "A"), ("S", "A"), ("B", "VDD")]⟩, exLib_ordered, exElems_good, by decide, ?_, by decide +kernel⟩
  exact ⟨"A", "A", "A", by decide, by decide, by decide, .inr (.inr ⟨.inr (.here (.inl (by decide))), rfl, rfl⟩)⟩

/-- **C76 is violated.**  The assertion against empty subcircuits leaves out a subcircuit with a single element, which becomes empty. -/
theorem C76_violated_empty : ∃ (L : Lib) (cs : List Con) (l : List Inst), Ordered L ∧ Single cs ∧ Good L l ∧ l ≠ [] ∧ removeOff L cs l = some [] := by
  refine ⟨exLib, [.ground ["VSS"]], [⟨"M1", "NFET", [("D", "A"), ("G", "VSS"), ("S", "B"), ("B", "VSS")]⟩], exLib_ordered, by simp [Single],
    ⟨by decide, by decide, by decide⟩, by simp, by decide +kernel⟩

end Verif.Pre.Off

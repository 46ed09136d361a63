import Mathlib.Data.List.Basic
import Mathlib.Data.List.Nodup

/-!
# C66: what a loaded PDK guarantees

Model of `Pdk.load`, `_check`, `_add`, `addMetal`, `addVia`, `add` (`align/cell_fabric/pdk.py`, 35-143).

Simplifications: a layer is a list of named values with different names (a JSON object); booleans are not told apart
from other values that are no integers.  `str.lower` is a parameter.
-/

namespace Verif.Pdk

/-- JSON values in a layer definition. -/
inductive Val
  | null
  | int (i : Int)
  | str (s : String)
  | list (l : List Val)
  | other

abbrev Obj := List (String × Val)

def get (o : Obj) (k : String) : Option Val := o.lookup k

/-- `kwargs[k] = v` for a key that exists. -/
def setVal (o : Obj) (k : String) (v : Val) : Obj := o.map fun e => if e.1 == k then (k, v) else e

/-- `_check` (52-56). -/
def check (params optional : List String) (o : Obj) : Bool :=
  (params.all fun x => (get o x).isSome) && (o.all fun e => params.contains e.1 || optional.contains e.1)

/-- `_add` (58-61), the stored values. -/
def store (o : Obj) : Obj :=
  (o.filter fun e => e.1 != "Layer").map fun e => (e.1, match e.2 with | .str "NA" => .null | v => v)

def isInt : Val → Bool
  | .int _ => true
  | _ => false

def isEven : Val → Bool
  | .int i => i % 2 == 0
  | _ => false

/-- Lines 82-84: integer, null, or a list of these. -/
def intOk : Val → Bool
  | .null => true
  | .list l => l.all fun y => match y with | .null => true | v => isInt v
  | v => isInt v

/-- Lines 86-88: even, null, or a list of even integers. -/
def evenOk : Val → Bool
  | .null => true
  | .list l => l.all isEven
  | v => isEven v

/-- Lines 64-78. -/
def metalOptional : List String := ["AdjacentAttacker", "Space", "Stop_point", "Stop_pitch", "Stop_offset", "LabelLayerNo"]
def metalParams : List String :=
  ["Layer", "GdsLayerNo", "GdsDatatype", "Direction", "Color", "Pitch", "Width", "MinL", "MaxL", "EndToEnd", "Offset",
   "UnitC", "UnitCC", "UnitR"]

/-- Lines 112-125. -/
def viaOptional : List String := ["ViaCut", "Pitch", "Offset"]
def viaParams : List String :=
  ["Layer", "GdsLayerNo", "GdsDatatype", "Stack", "SpaceX", "SpaceY", "WidthX", "WidthY", "VencA_L", "VencA_H",
   "VencP_L", "VencP_H", "R"]

/-- `l[a:b]` -/
def slice (l : List String) (a b : Nat) : List String := (l.take b).drop a

abbrev Store := List (String × Obj)

/-- `addMetal` (63-109). -/
def addMetal (lower : String → String) (name : String) (o : Obj) (pdk : Store) : Option Store :=
  if check metalParams metalOptional o && ((slice metalParams 5 10).all fun x => ((get o x).map intOk).getD false) &&
      ((slice metalParams 5 6).all fun x => ((get o x).map evenOk).getD false) then
    match get o "Direction" with
    | some (.str d) =>
      if lower d = "v" ∨ lower d = "h" then some (pdk ++ [(name, store (setVal o "Direction" (.str (lower d))))])
      else none
    | _ => none
  else none

/-- Lines 132-133: two entries, each null or the name of a layer that is known already. -/
def stackOk (pdk : Store) : Val → Bool
  | .list [a, b] => [a, b].all fun x => match x with | .null => true | .str s => (pdk.map Prod.fst).contains s | _ => false
  | _ => false

/-- `addVia` (111-139). -/
def addVia (name : String) (o : Obj) (pdk : Store) : Option Store :=
  if check viaParams viaOptional o && ((slice viaParams 4 7).all fun x => ((get o x).map isInt).getD false) &&
      ((slice viaParams 4 7).all fun x => ((get o x).map isEven).getD false) &&
      ((get o "Stack").map (stackOk pdk)).getD false then
    some (pdk ++ [(name, store o)])
  else none

def startsWith (s : String) (c : Char) : Bool := s.toList.head? == some c

/-- The body of the loop in `load` (40-48). -/
def loadLayer (lower : String → String) (isUpper : Char → Bool) (pdk : Store) (o : Obj) : Option Store :=
  match get o "Layer" with
  | some (.str name) =>
    if (pdk.map Prod.fst).contains name then none
    else
      match name.toList.head? with
      | none => none
      | some c =>
        if isUpper c then
          if startsWith name 'M' then addMetal lower name o pdk
          else if startsWith name 'V' then addVia name o pdk
          else some (pdk ++ [(name, store o)])
        else none
  | _ => none

/-- `load` (35-49). -/
def load (lower : String → String) (isUpper : Char → Bool) (layers : List Obj) : Option Store :=
  layers.foldlM (loadLayer lower isUpper) []

/-! ## Specification -/

/-- An even integer. -/
def Even' (v : Val) : Prop := ∃ i, v = .int i ∧ i % 2 = 0

/-- A dimension is null, an integer or a list of integers and nulls. -/
def Dim (v : Val) : Prop :=
  v = .null ∨ (∃ i, v = .int i) ∨ ∃ l, v = .list l ∧ ∀ y ∈ l, y = .null ∨ ∃ i, y = .int i

/-- What a loaded metal guarantees. -/
structure MetalOk (o : Obj) : Prop where
  direction : get o "Direction" = some (.str "v") ∨ get o "Direction" = some (.str "h")
  dims : ∀ k ∈ ["Pitch", "Width", "MinL", "MaxL", "EndToEnd"], ∃ v, get o k = some v ∧ Dim v
  pitch : ∃ v, get o "Pitch" = some v ∧ (v = .null ∨ Even' v ∨ ∃ l, v = .list l ∧ ∀ y ∈ l, Even' y)
  required : ∀ k ∈ ["GdsLayerNo", "GdsDatatype", "Direction", "Color", "Pitch", "Width", "MinL", "MaxL", "EndToEnd", "Offset",
    "UnitC", "UnitCC", "UnitR"], (get o k).isSome

/-- What a loaded via guarantees; `before` are the layers loaded earlier. -/
structure ViaOk (before : List String) (o : Obj) : Prop where
  dims : ∀ k ∈ ["SpaceX", "SpaceY", "WidthX"], ∃ v, get o k = some v ∧ Even' v
  stack : ∃ a b, get o "Stack" = some (.list [a, b]) ∧
    ∀ x ∈ [a, b], x = .null ∨ ∃ s, x = .str s ∧ s ∈ before
  required : ∀ k ∈ ["GdsLayerNo", "GdsDatatype", "Stack", "SpaceX", "SpaceY", "WidthX", "WidthY", "VencA_L", "VencA_H",
    "VencP_L", "VencP_H", "R"], (get o k).isSome

/-! ## Proofs -/

/-- The replacement of `"NA"`. -/
def na : Val → Val
  | .str "NA" => .null
  | v => v

theorem lookup_filter {o : Obj} {k : String} (hk : k ≠ "Layer") :
    (o.filter fun e => e.1 != "Layer").lookup k = o.lookup k := by
  induction o with
  | nil => rfl
  | cons e o ih =>
    by_cases h : e.1 = "Layer"
    · rw [List.filter_cons_of_neg (by simp [h]), ih, List.lookup_cons]
      have : (k == e.1) = false := by rw [h]; simpa using hk
      rw [this]
    · rw [List.filter_cons_of_pos (by simpa using h), List.lookup_cons, List.lookup_cons, ih]

theorem lookup_mapVal {o : Obj} {f : Val → Val} {k : String} :
    (o.map fun e => (e.1, f e.2)).lookup k = (o.lookup k).map f := by
  induction o with
  | nil => rfl
  | cons e o ih =>
    rw [List.map_cons, List.lookup_cons, List.lookup_cons]
    by_cases h : (k == e.1) = true
    · simp [h]
    · simp only [h]; exact ih

theorem get_store {o : Obj} {k : String} (hk : k ≠ "Layer") : get (store o) k = (get o k).map na := by
  have e : store o = (o.filter fun e => e.1 != "Layer").map fun e => (e.1, na e.2) := rfl
  rw [e]
  unfold get
  rw [lookup_mapVal, lookup_filter hk]

theorem get_setVal {o : Obj} {k j : String} {v : Val} :
    get (setVal o k v) j = if j = k then (get o j).map (fun _ => v) else get o j := by
  unfold get setVal
  induction o with
  | nil => simp
  | cons e o ih =>
    rw [List.map_cons, List.lookup_cons, List.lookup_cons, ih]
    by_cases hk : e.1 = k
    · by_cases hj : j = k
      · subst hj hk; simp
      · have h1 : (j == k) = false := by simpa using hj
        have h2 : (j == e.1) = false := by rw [hk]; exact h1
        simp [hk, h1, hj]
    · by_cases hj : j = k
      · subst hj
        have h2 : (j == e.1) = false := by simpa using fun h => hk h.symm
        simp [hk, h2]
      · simp [hk, hj]

theorem na_int {i : Int} : na (.int i) = .int i := rfl

theorem isInt_iff {v : Val} : isInt v = true ↔ ∃ i, v = .int i := by
  cases v <;> simp [isInt]

theorem isEven_iff {v : Val} : isEven v = true ↔ Even' v := by
  cases v <;> simp [isEven, Even']

theorem intOk_dim {v : Val} (h : intOk v = true) : Dim v ∧ na v = v := by
  cases v with
  | null => exact ⟨Or.inl rfl, rfl⟩
  | int i => exact ⟨Or.inr (Or.inl ⟨i, rfl⟩), rfl⟩
  | str s => simp [intOk, isInt] at h
  | other => simp [intOk, isInt] at h
  | list l =>
    refine ⟨Or.inr (Or.inr ⟨l, rfl, ?_⟩), rfl⟩
    intro y hy
    simp only [intOk, List.all_eq_true] at h
    have := h y hy
    cases y with
    | null => exact Or.inl rfl
    | int i => exact Or.inr ⟨i, rfl⟩
    | str s => simp [isInt] at this
    | other => simp [isInt] at this
    | list l => simp [isInt] at this

theorem evenOk_spec {v : Val} (h : evenOk v = true) : v = .null ∨ Even' v ∨ ∃ l, v = .list l ∧ ∀ y ∈ l, Even' y := by
  cases v with
  | null => exact Or.inl rfl
  | int i => exact Or.inr (Or.inl (isEven_iff.mp (by simpa [evenOk] using h)))
  | str s => simp [evenOk, isEven] at h
  | other => simp [evenOk, isEven] at h
  | list l =>
    refine Or.inr (Or.inr ⟨l, rfl, ?_⟩)
    intro y hy
    exact isEven_iff.mp (List.all_eq_true.mp (by simpa [evenOk] using h) y hy)

theorem getD_map {o : Option Val} {f : Val → Bool} (h : (o.map f).getD false = true) : ∃ v, o = some v ∧ f v = true := by
  cases o with
  | none => simp at h
  | some v => exact ⟨v, rfl, by simpa using h⟩

theorem addMetal_spec {lower : String → String} {name : String} {o : Obj} {pdk r : Store}
    (h : addMetal lower name o pdk = some r) : ∃ o', r = pdk ++ [(name, o')] ∧ MetalOk o' := by
  unfold addMetal at h
  split at h
  · rename_i hc
    rw [Bool.and_eq_true, Bool.and_eq_true] at hc
    obtain ⟨⟨hc, hi⟩, he⟩ := hc
    split at h
    · rename_i d hd
      split at h
      · rename_i hl
        simp only [Option.some.injEq] at h
        refine ⟨_, h.symm, ?_⟩
        have hdir : get (store (setVal o "Direction" (.str (lower d)))) "Direction" = some (na (.str (lower d))) := by
          rw [get_store (by decide), get_setVal, if_pos rfl, hd]; rfl
        have hoth : ∀ k, k ≠ "Layer" → k ≠ "Direction" →
            get (store (setVal o "Direction" (.str (lower d)))) k = (get o k).map na := by
          intro k h1 h2
          rw [get_store h1, get_setVal, if_neg h2]
        refine ⟨?_, ?_, ?_, ?_⟩
        · rw [hdir]
          rcases hl with hl | hl <;> rw [hl]
          · exact Or.inl rfl
          · exact Or.inr rfl
        · intro k hk
          have hk' : k ∈ slice metalParams 5 10 := hk
          obtain ⟨v, hv, hok⟩ := getD_map (List.all_eq_true.mp hi k hk')
          have hne : k ≠ "Layer" ∧ k ≠ "Direction" := by
            clear hv hok hk'; revert hk; revert k; decide
          refine ⟨v, ?_, (intOk_dim hok).1⟩
          rw [hoth k hne.1 hne.2, hv, Option.map_some, (intOk_dim hok).2]
        · obtain ⟨v, hv, hok⟩ := getD_map (List.all_eq_true.mp he "Pitch" (by decide))
          obtain ⟨w, hw, hok'⟩ := getD_map (List.all_eq_true.mp hi "Pitch" (by decide))
          rw [hv] at hw
          cases hw
          refine ⟨v, ?_, evenOk_spec hok⟩
          rw [hoth _ (by decide) (by decide), hv, Option.map_some, (intOk_dim hok').2]
        · intro k hk
          have hne : k ≠ "Layer" := by revert hk; revert k; decide
          have hk' : k ∈ metalParams := List.mem_cons_of_mem _ hk
          have := List.all_eq_true.mp ((Bool.and_eq_true _ _ ▸ hc : _ ∧ _).1) k hk'
          by_cases hk' : k = "Direction"
          · rw [hk', hdir]; rfl
          · rw [hoth k hne hk', Option.isSome_map]; exact this
      · cases h
    · cases h
  · cases h

theorem stackOk_spec {pdk : Store} {v : Val} (h : stackOk pdk v = true) :
    ∃ a b, v = .list [a, b] ∧ ∀ x ∈ [a, b], x = .null ∨ ∃ s, x = .str s ∧ s ∈ pdk.map Prod.fst := by
  unfold stackOk at h
  split at h
  · rename_i a b
    refine ⟨a, b, rfl, ?_⟩
    intro x hx
    have := List.all_eq_true.mp h x hx
    cases x with
    | null => exact Or.inl rfl
    | str s => exact Or.inr ⟨s, rfl, by simpa using this⟩
    | int i => simp at this
    | list l => simp at this
    | other => simp at this
  · cases h

theorem addVia_spec {name : String} {o : Obj} {pdk r : Store}
    (h : addVia name o pdk = some r) : ∃ o', r = pdk ++ [(name, o')] ∧ ViaOk (pdk.map Prod.fst) o' := by
  unfold addVia at h
  split at h
  · rename_i hc
    rw [Bool.and_eq_true, Bool.and_eq_true, Bool.and_eq_true] at hc
    obtain ⟨⟨⟨hc, _⟩, he⟩, hs⟩ := hc
    simp only [Option.some.injEq] at h
    refine ⟨_, h.symm, ?_, ?_, ?_⟩
    · intro k hk
      have hk' : k ∈ slice viaParams 4 7 := hk
      obtain ⟨v, hv, hok⟩ := getD_map (List.all_eq_true.mp he k hk')
      obtain ⟨i, rfl, hi⟩ := isEven_iff.mp hok
      have hne : k ≠ "Layer" := by clear hv hok hk'; revert hk; revert k; decide
      exact ⟨.int i, by rw [get_store hne, hv]; rfl, i, rfl, hi⟩
    · obtain ⟨v, hv, hok⟩ := getD_map hs
      obtain ⟨a, b, rfl, hab⟩ := stackOk_spec hok
      exact ⟨a, b, by rw [get_store (by decide), hv]; rfl, hab⟩
    · intro k hk
      have hne : k ≠ "Layer" := by revert hk; revert k; decide
      have hk' : k ∈ viaParams := List.mem_cons_of_mem _ hk
      have := List.all_eq_true.mp ((Bool.and_eq_true _ _ ▸ hc : _ ∧ _).1) k hk'
      rw [get_store hne, Option.isSome_map]; exact this
  · cases h

theorem loadLayer_spec {lower : String → String} {isUpper : Char → Bool} {pdk r : Store} {o : Obj}
    (h : loadLayer lower isUpper pdk o = some r) : ∃ name o', get o "Layer" = some (.str name) ∧
      name ∉ pdk.map Prod.fst ∧ r = pdk ++ [(name, o')] ∧ (startsWith name 'M' = true → MetalOk o') ∧
      (startsWith name 'V' = true → ViaOk (pdk.map Prod.fst) o') := by
  unfold loadLayer at h
  split at h
  · rename_i name hname
    split at h
    · cases h
    · rename_i hnew
      have hnew' : name ∉ pdk.map Prod.fst := by simpa using hnew
      split at h
      · cases h
      · split at h
        · have hexcl : startsWith name 'M' = true → startsWith name 'V' = true → False := by
            intro h1 h2
            unfold startsWith at h1 h2
            simp only [beq_iff_eq] at h1 h2
            rw [h1] at h2
            exact absurd h2 (by decide)
          split at h
          · rename_i hM
            obtain ⟨o', h1, h2⟩ := addMetal_spec h
            exact ⟨name, o', hname, hnew', h1, fun _ => h2, fun hV => (hexcl hM hV).elim⟩
          · rename_i hM
            split at h
            · obtain ⟨o', h1, h2⟩ := addVia_spec h
              exact ⟨name, o', hname, hnew', h1, fun hM' => absurd hM' hM, fun _ => h2⟩
            · rename_i hV
              simp only [Option.some.injEq] at h
              exact ⟨name, _, hname, hnew', h.symm, fun hM' => absurd hM' hM, fun hV' => absurd hV' hV⟩
        · cases h
  · cases h

/-- **C66 (partial).**  A PDK that loads has one entry for each layer of the file, in order and with different
names.  Every metal has its required entries, direction `v` or `h`, integer dimensions and an even pitch; every
via has its required entries, even `SpaceX`, `SpaceY` and `WidthX`, and a stack of two layers that were defined before
it.  Missing from the full claim: the width of metals and `WidthY` of vias need not be even (see below). -/
theorem C66_loaded_partial {lower : String → String} {isUpper : Char → Bool} {layers : List Obj} {r : Store}
    (h : load lower isUpper layers = some r) :
    layers.map (fun o => get o "Layer") = r.map (fun e => some (.str e.1)) ∧ (r.map Prod.fst).Nodup ∧
    ∀ i (hi : i < r.length), (startsWith r[i].1 'M' = true → MetalOk r[i].2) ∧
      (startsWith r[i].1 'V' = true → ViaOk ((r.take i).map Prod.fst) r[i].2) := by
  suffices H : ∀ (layers done : List Obj) (acc r : Store),
      (done.map (fun o => get o "Layer") = acc.map (fun e => some (.str e.1)) ∧ (acc.map Prod.fst).Nodup ∧
        ∀ i (hi : i < acc.length), (startsWith acc[i].1 'M' = true → MetalOk acc[i].2) ∧
          (startsWith acc[i].1 'V' = true → ViaOk ((acc.take i).map Prod.fst) acc[i].2)) →
      layers.foldlM (loadLayer lower isUpper) acc = some r →
      ((done ++ layers).map (fun o => get o "Layer") = r.map (fun e => some (.str e.1)) ∧ (r.map Prod.fst).Nodup ∧
        ∀ i (hi : i < r.length), (startsWith r[i].1 'M' = true → MetalOk r[i].2) ∧
          (startsWith r[i].1 'V' = true → ViaOk ((r.take i).map Prod.fst) r[i].2)) by
    exact H layers [] [] r ⟨rfl, by simp, fun i hi => absurd hi (by simp)⟩ h
  clear h r layers
  intro layers
  induction layers with
  | nil =>
    intro done acc r hacc h
    simp only [List.foldlM_nil, Option.pure_def, Option.some.injEq] at h
    subst h
    simpa using hacc
  | cons o layers ih =>
    intro done acc r hacc h
    rw [List.foldlM_cons, Option.bind_eq_bind, Option.bind_eq_some_iff] at h
    obtain ⟨acc', h1, h2⟩ := h
    obtain ⟨name, o', g1, g2, rfl, g3, g4⟩ := loadLayer_spec h1
    have := ih (done ++ [o]) (acc ++ [(name, o')]) r ?_ h2
    · simpa using this
    · refine ⟨by simp [hacc.1, g1], ?_, ?_⟩
      · rw [List.map_append, List.nodup_append]
        refine ⟨hacc.2.1, by simp, ?_⟩
        intro a ha b hb
        simp only [List.map_cons, List.map_nil, List.mem_singleton] at hb
        subst hb
        rintro rfl
        exact g2 ha
      · intro i hi
        by_cases hlt : i < acc.length
        · rw [List.getElem_append_left hlt, List.take_append_of_le_length (by omega)]
          exact hacc.2.2 i hlt
        · have hie : i = acc.length := by
            simp only [List.length_append, List.length_cons, List.length_nil] at hi; omega
          subst hie
          rw [List.getElem_append_right (Nat.le_refl _), List.take_append_of_le_length (Nat.le_refl _), List.take_length]
          simp only [Nat.sub_self, List.getElem_cons_zero]
          exact ⟨g3, g4⟩

/-! ### A non-trivial case, and the violations -/

/-- Lower case of the two directions. -/
def lowerDir (s : String) : String := if s = "H" then "h" else if s = "V" then "v" else s

def metal (name dir : String) (pitch width : Val) : Obj :=
  [("Layer", .str name), ("GdsLayerNo", .int 15), ("GdsDatatype", .other), ("Direction", .str dir), ("Color", .list []),
   ("Pitch", pitch), ("Width", width), ("MinL", .int 200), ("MaxL", .null), ("EndToEnd", .int 48), ("Offset", .int 0),
   ("UnitC", .other), ("UnitCC", .other), ("UnitR", .other)]

def via (name : String) (stack : Val) (wx wy : Val) : Obj :=
  [("Layer", .str name), ("GdsLayerNo", .int 21), ("GdsDatatype", .other), ("Stack", stack), ("SpaceX", .int 76),
   ("SpaceY", .int 76), ("WidthX", wx), ("WidthY", wy), ("VencA_L", .int 20), ("VencA_H", .int 20), ("VencP_L", .int 0),
   ("VencP_H", .int 0), ("R", .int 7)]

/-- Two metals and a via load. -/
example : (load lowerDir (fun c => c.isUpper) [metal "M1" "V" (.int 80) (.int 32), metal "M2" "h" (.list [.int 84]) (.list [.int 32, .int 40]),
    [("Layer", .str "Bbox")], via "V1" (.list [.str "M1", .str "M2"]) (.int 32) (.int 32)]).isSome = true := by decide +kernel

/-- A metal with an odd pitch, a second layer with the same name, and a via before its metals are rejected. -/
example : (load lowerDir (fun c => c.isUpper) [metal "M1" "V" (.int 81) (.int 32)]).isNone = true := by decide +kernel
example : (load lowerDir (fun c => c.isUpper) [metal "M1" "V" (.int 80) (.int 32), metal "M1" "V" (.int 80) (.int 32)]).isNone = true := by
  decide +kernel
example : (load lowerDir (fun c => c.isUpper) [via "V1" (.list [.str "M1", .null]) (.int 32) (.int 32),
    metal "M1" "V" (.int 80) (.int 32)]).isNone = true := by decide +kernel

def asInt : Val → Option Int
  | .int i => some i
  | _ => none

def asStr : Val → Option String
  | .str i => some i
  | _ => none

/-- **C66 is violated by metals with an odd width**: the test (86-88) covers the pitch only. -/
theorem C66_violated_metal_width :
    ((load lowerDir (fun c => c.isUpper) [metal "M1" "V" (.int 80) (.int 33)]).bind fun r => r[0]?.bind fun e =>
      (get e.2 "Width").bind asInt) = some 33 := by decide +kernel

/-- **C66 is violated by vias with an odd height, or one that is no number at all**: the tests (129-130) stop before
`WidthY`. -/
theorem C66_violated_via_height :
    ((load lowerDir (fun c => c.isUpper) [via "V1" (.list [.null, .null]) (.int 32) (.int 33)]).bind fun r => r[0]?.bind fun e =>
      (get e.2 "WidthY").bind asInt) = some 33 ∧
    ((load lowerDir (fun c => c.isUpper) [via "V1" (.list [.null, .null]) (.int 32) (.str "x")]).bind fun r => r[0]?.bind fun e =>
      (get e.2 "WidthY").bind asStr) = some "x" := by decide +kernel

end Verif.Pdk

import Mathlib.Data.List.Nodup
import Mathlib.Data.List.Induction

/-!
# C133, C134: reading the layers of a PDK

`PnRDB/ReadDesignRuleJson.cpp`: `ReadPDKJSON` 13-475, sections 1 (metals), 2 (vias) and 4 (models of vias).

Simplifications: of a layer only what is used here is kept, and a layer has all fields, though those of a metal are used for metals only. Numbers in JSON are integers;
the scale factor is left out (it is 1 in the PDKs of the repository), so a length is twice that of the file. -1 for an index is `none`.
An `assert` that fails is `none`. The pitch, the spaces, R and C, the guard ring and `design_info` are left out.
-/

namespace Verif.PdkCpp

/-! ## The code -/

/-- A layer of the file. -/
structure Layer where
  name : String
  gds : Int
  vert : Bool
  width : Int
  stack : List (Option String)
  wx : Int
  wy : Int
  encAL : Int
  encAH : Int
  encPL : Int
  encPH : Int

/-- `metal_info` (33-134). -/
structure Metal where
  name : String
  vert : Bool
  width : Int

/-- `via_info` (195-215). -/
structure Via where
  name : String
  lower : Option Nat
  upper : Option Nat
  wx : Int
  wy : Int
  coverL : Int
  coverLP : Int
  coverU : Int
  coverUP : Int

/-- Whether the layer is a metal, a via (34, 159). -/
def isMetal (l : Layer) : Bool := l.name.front == 'M'
def isVia (l : Layer) : Bool := l.name.front == 'V'

/-- `Metal_info` (33-134): the map of the metals is filled with rising numbers. -/
def metals (ls : List Layer) : List Metal := (ls.filter isMetal).map fun l => ⟨l.name, l.vert, 2 * l.width⟩

/-- `Metalmap` (133): a name that occurs again replaces the number. -/
def metalMap (ms : List Metal) : String → Option Nat :=
  ms.zipIdx.foldl (fun f p => fun s => if s = p.1.name then some p.2 else f s) fun _ => none

/-- `Metalmap[s]`: 0 for a name that is not there (221-228). -/
def stackIdx (ms : List Metal) (s : Option String) : Option Nat := s.map fun n => (metalMap ms n).getD 0

/-- `via_index`, `viaSet`, `viaSet_vt` and the names in `name2ViaLayerMap`. -/
structure St where
  idx : Int
  reg : List (Int × Via)
  vt : List (Int × Via)
  names : List String

/-- One via (159-247). -/
def viaStep (ms : List Metal) (st : St) (l : Layer) : Option St :=
  match l.stack with
  | [a, b] =>
    let v : Via := ⟨l.name, stackIdx ms a, stackIdx ms b, 2 * l.wx, 2 * l.wy, 2 * l.encAL, 2 * l.encPL, 2 * l.encAH, 2 * l.encPH⟩
    let i := st.idx + 1 + 1
    if v.lower.isSome then
      if l.gds ∈ st.reg.map (·.1) ∨ l.name ∈ st.names then none else some ⟨i, st.reg ++ [(i, v)], st.vt, st.names ++ [l.name]⟩
    else
      if l.gds ∈ st.vt.map (·.1) ∨ l.name ∈ st.names then none else some ⟨i, st.reg, st.vt ++ [(i, v)], st.names ++ [l.name]⟩
  | _ => none

/-- The loop over the vias (155-249). -/
def viaLoop (ms : List Metal) : List Layer → St → Option St
  | [], st => some st
  | l :: ls, st => (viaStep ms st l).bind (viaLoop ms ls)

/-- What is read. -/
structure Rules where
  metals : List Metal
  vias : List Via
  lowerVia : Nat → Option Nat
  upperVia : Nat → Option Nat

/-- `lower_via_index`, `upper_via_index` of the metals (250-263). -/
def viaOf (sel : Via → Option Nat) (vs : List Via) : Nat → Option Nat :=
  vs.zipIdx.foldl (fun f p => fun m => if sel p.1 = some m then some p.2 else f m) fun _ => none

/-- Sections 1 and 2 of `ReadPDKJSON`. -/
def read (ls : List Layer) : Option Rules :=
  (viaLoop (metals ls) (ls.filter isVia) ⟨0, [], [], []⟩).map fun st =>
    let vs := st.reg.map (·.2) ++ st.vt.map (·.2)
    ⟨metals ls, vs, viaOf (·.upper) vs, viaOf (·.lower) vs⟩

/-- A rectangle: LL and UR. -/
structure Box where
  x0 : Int
  y0 : Int
  x1 : Int
  y1 : Int
  deriving DecidableEq

/-- `ViaRect` (311-318). -/
def viaRect (v : Via) : Box := ⟨0 - v.wx.tdiv 2, 0 - v.wy.tdiv 2, 0 + v.wx.tdiv 2, 0 + v.wy.tdiv 2⟩

/-- `LowerRect`, `UpperRect` (367-411) with the covers along and across the metal. -/
def metalRect (m : Metal) (v : Via) (c cP : Int) : Box :=
  if m.vert then
    ⟨min (0 - v.wx.tdiv 2 - cP) ((-m.width).tdiv 2), 0 - v.wy.tdiv 2 - c, max (0 + v.wx.tdiv 2 + cP) (m.width.tdiv 2), 0 + v.wy.tdiv 2 + c⟩
  else
    ⟨0 - v.wx.tdiv 2 - c, min (0 - v.wy.tdiv 2 - cP) ((-m.width).tdiv 2), 0 + v.wx.tdiv 2 + c, max (0 + v.wy.tdiv 2 + cP) (m.width.tdiv 2)⟩

def lowerRect (P : Rules) (v : Via) : Option Box := v.lower.bind fun i => (P.metals[i]?).map fun m => metalRect m v v.coverL v.coverLP
def upperRect (P : Rules) (v : Via) : Option Box := v.upper.bind fun i => (P.metals[i]?).map fun m => metalRect m v v.coverU v.coverUP

/-! ## What the properties say -/

/-- The names of the metals of the file, from the first on. -/
def metalNames (ls : List Layer) : List String := (ls.filter fun l => l.name.front == 'M').map (·.name)
/-- The vias of the file that lie on a metal, and those that do not. -/
def onMetal (ls : List Layer) : List Layer := ls.filter fun l => l.name.front == 'V' && (l.stack.head?.join).isSome
def onDevice (ls : List Layer) : List Layer := ls.filter fun l => l.name.front == 'V' && !(l.stack.head?.join).isSome

/-- Every metal that a via names is in the file. -/
def Named (ls : List Layer) : Prop := ∀ l ∈ ls, l.name.front = 'V' → ∀ s, some s ∈ l.stack → s ∈ metalNames ls

/-- The metal with this number has this name; no number for no name. -/
def Is (P : Rules) (i : Option Nat) (s : Option String) : Prop :=
  (i = none ∧ s = none) ∨ ∃ k m, i = some k ∧ P.metals[k]? = some m ∧ s = some m.name

/-- The box contains the box around the origin with this size. -/
def Box.Has (b : Box) (w h : Int) : Prop := 2 * b.x0 ≤ -w ∧ w ≤ 2 * b.x1 ∧ 2 * b.y0 ≤ -h ∧ h ≤ 2 * b.y1

/-! ## Proofs -/

theorem metal_names (ls : List Layer) : (metals ls).map (·.name) = metalNames ls := by
  unfold metals metalNames isMetal
  rw [List.map_map]
  rfl

theorem map_append (ms : List Metal) (m : Metal) (s : String) : metalMap (ms ++ [m]) s = if s = m.name then some ms.length else metalMap ms s := by
  unfold metalMap
  rw [List.zipIdx_append, List.foldl_append]
  simp

/-- The map gives a metal with the name, if there is one. -/
theorem map_some {ms : List Metal} : ∀ {s : String} {i : Nat}, metalMap ms s = some i → ∃ m, ms[i]? = some m ∧ m.name = s := by
  induction ms using List.reverseRecOn with
  | nil => intro s i h; simp [metalMap] at h
  | append_singleton ms m ih =>
    intro s i h
    rw [map_append] at h
    by_cases e : s = m.name
    · rw [if_pos e] at h
      refine ⟨m, ?_, e.symm⟩
      rw [← Option.some.inj h]
      simp
    · rw [if_neg e] at h
      obtain ⟨x, hx, hn⟩ := ih h
      refine ⟨x, ?_, hn⟩
      have : i < ms.length := by
        by_contra hlt
        rw [List.getElem?_eq_none (by omega)] at hx
        simp at hx
      rw [List.getElem?_append_left this]
      exact hx

theorem map_isSome {ms : List Metal} : ∀ {s : String}, s ∈ ms.map (·.name) → (metalMap ms s).isSome = true := by
  induction ms using List.reverseRecOn with
  | nil => intro s h; simp at h
  | append_singleton ms m ih =>
    intro s h
    rw [map_append]
    by_cases e : s = m.name
    · rw [if_pos e]; rfl
    · rw [if_neg e]
      apply ih
      simp only [List.map_append, List.mem_append, List.map_cons, List.map_nil, List.mem_singleton] at h
      exact h.resolve_right e

theorem stack_is {ms : List Metal} {P : Rules} (hP : P.metals = ms) {s : Option String} (h : ∀ n, s = some n → n ∈ ms.map (·.name)) : Is P (stackIdx ms s) s := by
  unfold stackIdx Is
  cases s with
  | none => exact Or.inl ⟨rfl, rfl⟩
  | some n =>
    right
    obtain ⟨i, hi⟩ := Option.isSome_iff_exists.1 (map_isSome (h n rfl))
    obtain ⟨m, hm, hn⟩ := map_some hi
    exact ⟨i, m, by rw [Option.map_some, hi]; rfl, by rw [hP]; exact hm, by rw [hn]⟩

/-- The via that is made of a layer. -/
def mk (ms : List Metal) (l : Layer) : Via :=
  ⟨l.name, stackIdx ms (l.stack[0]?).join, stackIdx ms (l.stack[1]?).join, 2 * l.wx, 2 * l.wy, 2 * l.encAL, 2 * l.encPL, 2 * l.encAH, 2 * l.encPH⟩

theorem step_spec {ms : List Metal} {st st' : St} {l : Layer} (h : viaStep ms st l = some st') :
    l.stack.length = 2 ∧ ∃ i, (((l.stack.head?.join).isSome = true ∧ st'.reg = st.reg ++ [(i, mk ms l)] ∧ st'.vt = st.vt)
      ∨ ((l.stack.head?.join).isSome = false ∧ st'.vt = st.vt ++ [(i, mk ms l)] ∧ st'.reg = st.reg)) := by
  unfold viaStep at h
  match hs : l.stack, h with
  | [], h => simp at h
  | [a], h => simp at h
  | a :: b :: c :: r, h => simp at h
  | [a, b], h =>
    simp only at h
    refine ⟨rfl, st.idx + 1 + 1, ?_⟩
    have hsome : (stackIdx ms a).isSome = a.isSome := by unfold stackIdx; cases a <;> rfl
    have hmk : mk ms l = ⟨l.name, stackIdx ms a, stackIdx ms b, 2 * l.wx, 2 * l.wy, 2 * l.encAL, 2 * l.encPL, 2 * l.encAH, 2 * l.encPH⟩ := by
      unfold mk
      rw [hs]
      rfl
    rw [hmk]
    have hh : ((a :: [b]).head?.join) = a := by cases a <;> rfl
    rw [hh]
    by_cases ha : a.isSome = true
    · rw [if_pos (hsome.trans ha)] at h
      split at h
      · exact absurd h (by simp)
      · rw [← Option.some.inj h]
        exact Or.inl ⟨ha, rfl, rfl⟩
    · rw [if_neg (fun e => ha (hsome.symm.trans e))] at h
      split at h
      · exact absurd h (by simp)
      · rw [← Option.some.inj h]
        exact Or.inr ⟨by simpa using ha, rfl, rfl⟩

theorem loop_spec {ms : List Metal} : ∀ {ls : List Layer} {st st' : St}, viaLoop ms ls st = some st' → (∀ l ∈ ls, l.stack.length = 2)
    ∧ st'.reg.map (·.2) = st.reg.map (·.2) ++ (ls.filter fun l => (l.stack.head?.join).isSome).map (mk ms)
    ∧ st'.vt.map (·.2) = st.vt.map (·.2) ++ (ls.filter fun l => !(l.stack.head?.join).isSome).map (mk ms)
  | [], st, st', h => by
    have : st = st' := Option.some.inj h
    rw [this]
    simp
  | l :: ls, st, st', h => by
    unfold viaLoop at h
    cases hs : viaStep ms st l with
    | none => rw [hs] at h; exact absurd h (by simp)
    | some st1 =>
      rw [hs] at h
      obtain ⟨i1, i2, i3⟩ := loop_spec h
      obtain ⟨j1, i, j2⟩ := step_spec hs
      refine ⟨fun x hx => ?_, ?_, ?_⟩
      · rcases List.mem_cons.1 hx with e | e
        · rw [e]; exact j1
        · exact i1 x e
      · rw [i2, List.filter_cons]
        rcases j2 with ⟨a, b, _⟩ | ⟨a, _, b⟩
        · rw [b, if_pos a]; simp
        · rw [b, if_neg (by rw [a]; simp)]
      · rw [i3, List.filter_cons]
        rcases j2 with ⟨a, _, b⟩ | ⟨a, b, _⟩
        · rw [b, a]; simp
        · rw [b, a]; simp

/-- The vias that are read are those of the file, with those on no metal at the end. -/
theorem read_spec {ls : List Layer} {P : Rules} (h : read ls = some P) : P.metals = metals ls ∧ (∀ l ∈ ls, l.name.front = 'V' → l.stack.length = 2)
    ∧ P.vias = (onMetal ls ++ onDevice ls).map (mk (metals ls)) ∧ P.lowerVia = viaOf (·.upper) P.vias ∧ P.upperVia = viaOf (·.lower) P.vias := by
  unfold read at h
  cases hl : viaLoop (metals ls) (ls.filter isVia) ⟨0, [], [], []⟩ with
  | none => rw [hl] at h; exact absurd h (by simp)
  | some st =>
    rw [hl] at h
    have h' := Option.some.inj h
    simp only at h'
    obtain ⟨i1, i2, i3⟩ := loop_spec hl
    rw [← h']
    refine ⟨rfl, fun l hl' hv => i1 l (List.mem_filter.2 ⟨hl', by unfold isVia; rw [hv]; rfl⟩), ?_, rfl, rfl⟩
    simp only
    rw [i2, i3, List.map_append]
    unfold onMetal onDevice isVia
    rw [List.filter_filter, List.filter_filter]
    simp only [List.map_nil, List.nil_append, Bool.and_comm]

theorem viaOf_append (sel : Via → Option Nat) (vs : List Via) (v : Via) (m : Nat) :
    viaOf sel (vs ++ [v]) m = if sel v = some m then some vs.length else viaOf sel vs m := by
  unfold viaOf
  rw [List.zipIdx_append, List.foldl_append]
  simp

theorem viaOf_some {sel : Via → Option Nat} {vs : List Via} : ∀ {m j : Nat}, viaOf sel vs m = some j → ∃ v, vs[j]? = some v ∧ sel v = some m := by
  induction vs using List.reverseRecOn with
  | nil => intro m j h; simp [viaOf] at h
  | append_singleton vs v ih =>
    intro m j h
    rw [viaOf_append] at h
    by_cases e : sel v = some m
    · rw [if_pos e] at h
      refine ⟨v, ?_, e⟩
      rw [← Option.some.inj h]
      simp
    · rw [if_neg e] at h
      obtain ⟨x, hx, hn⟩ := ih h
      refine ⟨x, ?_, hn⟩
      have : j < vs.length := by
        by_contra hlt
        rw [List.getElem?_eq_none (by omega)] at hx
        simp at hx
      rw [List.getElem?_append_left this]
      exact hx

theorem viaOf_isSome {sel : Via → Option Nat} {vs : List Via} : ∀ {m : Nat} {v : Via}, v ∈ vs → sel v = some m → (viaOf sel vs m).isSome = true := by
  induction vs using List.reverseRecOn with
  | nil => intro m v h; simp at h
  | append_singleton vs x ih =>
    intro m v h hv
    rw [viaOf_append]
    by_cases e : sel x = some m
    · rw [if_pos e]; rfl
    · rw [if_neg e]
      rcases List.mem_append.1 h with h' | h'
      · exact ih h' hv
      · rw [List.mem_singleton.1 h'] at hv
        exact absurd hv e

/-! ## The theorems -/

/-- C133, for files where the metals that vias name are there: the vias that are read are those of the file, those that lie on no metal at the end, and each has the numbers of the
metals that the file names. -/
theorem C133_stack_partial {ls : List Layer} {P : Rules} (h : read ls = some P) (hn : Named ls) :
    P.metals.map (·.name) = metalNames ls ∧ P.vias.map (·.name) = (onMetal ls ++ onDevice ls).map (·.name)
      ∧ ∀ (k : Nat) (v : Via) (l : Layer), P.vias[k]? = some v → (onMetal ls ++ onDevice ls)[k]? = some l →
        ∃ a b, l.stack = [a, b] ∧ Is P v.lower a ∧ Is P v.upper b := by
  obtain ⟨r1, r2, r3, _⟩ := read_spec h
  refine ⟨by rw [r1]; exact metal_names ls, by rw [r3, List.map_map]; rfl, fun k v l hv hl => ?_⟩
  rw [r3, List.getElem?_map, hl] at hv
  have hv' : mk (metals ls) l = v := Option.some.inj hv
  have hmem : l ∈ ls ∧ l.name.front = 'V' := by
    have := List.mem_of_getElem? hl
    rcases List.mem_append.1 this with e | e
    · unfold onMetal at e
      have := List.mem_filter.1 e
      simp only [Bool.and_eq_true, beq_iff_eq] at this
      exact ⟨this.1, this.2.1⟩
    · unfold onDevice at e
      have := List.mem_filter.1 e
      simp only [Bool.and_eq_true, beq_iff_eq] at this
      exact ⟨this.1, this.2.1⟩
  have hlen := r2 l hmem.1 hmem.2
  obtain ⟨a, b, hs⟩ : ∃ a b, l.stack = [a, b] := List.length_eq_two.1 hlen
  have hnm : ∀ s, s ∈ l.stack → ∀ n, s = some n → n ∈ (metals ls).map (·.name) := by
    intro s hs' n e
    rw [metal_names]
    exact hn l hmem.1 hmem.2 n (e ▸ hs')
  refine ⟨a, b, hs, ?_, ?_⟩
  · rw [← hv']
    unfold mk
    rw [hs]
    exact stack_is r1 (hnm a (by rw [hs]; simp))
  · rw [← hv']
    unfold mk
    rw [hs]
    exact stack_is r1 (hnm b (by rw [hs]; simp))

/-- C133: the via above a metal lies on it, the via below a metal ends at it, and there is one if the file has one. -/
theorem C133_via_of_metal {ls : List Layer} {P : Rules} (h : read ls = some P) (m : Nat) :
    (∀ j, P.upperVia m = some j → ∃ v, P.vias[j]? = some v ∧ v.lower = some m)
      ∧ (∀ j, P.lowerVia m = some j → ∃ v, P.vias[j]? = some v ∧ v.upper = some m)
      ∧ (∀ v ∈ P.vias, v.lower = some m → (P.upperVia m).isSome = true) ∧ ∀ v ∈ P.vias, v.upper = some m → (P.lowerVia m).isSome = true := by
  obtain ⟨_, _, _, r4, r5⟩ := read_spec h
  rw [r4, r5]
  exact ⟨fun j hj => viaOf_some hj, fun j hj => viaOf_some hj, fun v hv e => viaOf_isSome hv e, fun v hv e => viaOf_isSome hv e⟩

/-- C133: if the metals of the file have different names, and the k-th via on a metal connects the k-th and the next metal, the via that is read with the
number k does so, however many vias to devices there are. -/
theorem C133_aligned {ls : List Layer} {P : Rules} (h : read ls = some P) (hd : (metalNames ls).Nodup)
    (ha : ∀ (k : Nat) (l : Layer), (onMetal ls)[k]? = some l → ∃ a b, (metalNames ls)[k]? = some a ∧ (metalNames ls)[k + 1]? = some b ∧ l.stack = [some a, some b]) :
    ∀ (k : Nat) (v : Via), k < (onMetal ls).length → P.vias[k]? = some v → v.lower = some k ∧ v.upper = some (k + 1) := by
  obtain ⟨r1, _, r3, _⟩ := read_spec h
  intro k v hk hv
  have hl : (onMetal ls)[k]? = some (onMetal ls)[k] := List.getElem?_eq_getElem hk
  obtain ⟨a, b, h1, h2, hs⟩ := ha k _ hl
  rw [r3, List.getElem?_map, List.getElem?_append_left hk, hl] at hv
  have hv' : mk (metals ls) (onMetal ls)[k] = v := Option.some.inj hv
  have key : ∀ (n : Nat) (s : String), (metalNames ls)[n]? = some s → stackIdx (metals ls) (some s) = some n := by
    intro n s hns
    unfold stackIdx
    have hmem : s ∈ (metals ls).map (·.name) := by rw [metal_names]; exact List.mem_of_getElem? hns
    obtain ⟨i, hi⟩ := Option.isSome_iff_exists.1 (map_isSome hmem)
    obtain ⟨m, hm, hn⟩ := map_some hi
    have : (metalNames ls)[i]? = some s := by rw [← metal_names, List.getElem?_map, hm, ← hn]; rfl
    have hin : i = n := by
      obtain ⟨p1, q1⟩ := List.getElem?_eq_some_iff.1 this
      obtain ⟨p2, q2⟩ := List.getElem?_eq_some_iff.1 hns
      exact (List.Nodup.getElem_inj_iff hd).1 (q1.trans q2.symm)
    rw [Option.map_some, hi, hin]
    rfl
  rw [← hv']
  unfold mk
  rw [hs]
  exact ⟨key k a h1, key (k + 1) b h2⟩

/-- C133, for files where vias have different names and GDS numbers that are not even numbers up to twice the number of vias: the file is read. -/
theorem C133_reads_partial (ls : List Layer) (hs : ∀ l ∈ ls, l.name.front = 'V' → l.stack.length = 2) (hn : ((ls.filter fun l => l.name.front == 'V').map (·.name)).Nodup)
    (hg : ∀ l ∈ ls, l.name.front = 'V' → ∀ k : Nat, l.gds = 2 * (k : Int) → ls.length < k ∨ k = 0) : (read ls).isSome = true := by
  have key : ∀ (vs : List Layer) (st : St), (∀ l ∈ vs, l.stack.length = 2) → (st.names ++ vs.map (·.name)).Nodup →
      (∀ l ∈ vs, ∀ k : Nat, l.gds = 2 * (k : Int) → ls.length < k ∨ k = 0) →
      (∃ n : Nat, st.idx = 2 * n ∧ n + vs.length ≤ ls.length ∧ ∀ x ∈ st.reg.map (·.1) ++ st.vt.map (·.1), ∃ k : Nat, x = 2 * (k : Int) ∧ 0 < k ∧ k ≤ n) →
      (viaLoop (metals ls) vs st).isSome = true := by
    intro vs
    induction vs with
    | nil => intro st _ _ _ _; rfl
    | cons l vs ih =>
      intro st h1 h2 h3 ⟨n, h4, h5, h6⟩
      obtain ⟨a, b, hab⟩ := List.length_eq_two.1 (h1 l List.mem_cons_self)
      have hname : l.name ∉ st.names := fun e => by
        have := (List.nodup_append.1 h2).2.2 _ e l.name (by simp)
        exact this rfl
      have hgds : ∀ x ∈ st.reg.map (·.1) ++ st.vt.map (·.1), l.gds ≠ x := by
        intro x hx e
        obtain ⟨k, k1, k2, k3⟩ := h6 x hx
        have := h3 l List.mem_cons_self k (e.trans k1)
        simp only [List.length_cons] at h5
        omega
      have hr : l.gds ∉ st.reg.map (·.1) := fun e => hgds _ (List.mem_append_left _ e) rfl
      have hv : l.gds ∉ st.vt.map (·.1) := fun e => hgds _ (List.mem_append_right _ e) rfl
      have hstep : ∃ st', viaStep (metals ls) st l = some st' ∧ st'.names = st.names ++ [l.name] ∧ st'.idx = st.idx + 1 + 1
          ∧ ∀ x ∈ st'.reg.map (·.1) ++ st'.vt.map (·.1), x ∈ st.reg.map (·.1) ++ st.vt.map (·.1) ∨ x = st.idx + 1 + 1 := by
        unfold viaStep
        rw [hab]
        simp only
        by_cases hc : (stackIdx (metals ls) a).isSome = true
        · rw [if_pos hc, if_neg (not_or.2 ⟨hr, hname⟩)]
          refine ⟨_, rfl, rfl, rfl, fun x hx => ?_⟩
          simp only [List.map_append, List.mem_append, List.map_cons, List.map_nil, List.mem_singleton] at hx ⊢
          rcases hx with (hx | hx) | hx
          · exact Or.inl (Or.inl hx)
          · exact Or.inr hx
          · exact Or.inl (Or.inr hx)
        · rw [if_neg hc, if_neg (not_or.2 ⟨hv, hname⟩)]
          refine ⟨_, rfl, rfl, rfl, fun x hx => ?_⟩
          simp only [List.map_append, List.mem_append, List.map_cons, List.map_nil, List.mem_singleton] at hx ⊢
          rcases hx with hx | hx | hx
          · exact Or.inl (Or.inl hx)
          · exact Or.inl (Or.inr hx)
          · exact Or.inr hx
      obtain ⟨st', s1, s2, s3, s4⟩ := hstep
      unfold viaLoop
      rw [s1]
      refine ih st' (fun x hx => h1 x (List.mem_cons_of_mem _ hx)) ?_ (fun x hx => h3 x (List.mem_cons_of_mem _ hx)) ⟨n + 1, ?_, ?_, ?_⟩
      · rw [s2, List.append_assoc]
        exact h2
      · rw [s3, h4]; omega
      · simp only [List.length_cons] at h5; omega
      · intro x hx
        rcases s4 x hx with e | e
        · obtain ⟨k, k1, k2, k3⟩ := h6 x e
          exact ⟨k, k1, k2, by omega⟩
        · exact ⟨n + 1, by rw [e, h4]; omega, by omega, by omega⟩
  unfold read
  rw [Option.isSome_map]
  have hmem : ∀ l ∈ ls.filter isVia, l ∈ ls ∧ l.name.front = 'V' := fun l hl => by
    have := List.mem_filter.1 hl
    unfold isVia at this
    exact ⟨this.1, by simpa using this.2⟩
  exact key _ _ (fun l hl => hs l (hmem l hl).1 (hmem l hl).2) (by rw [List.nil_append]; exact hn) (fun l hl => hg l (hmem l hl).1 (hmem l hl).2)
    ⟨0, rfl, by have := List.length_filter_le isVia ls; omega, fun x hx => by simp at hx⟩

def lay (name : String) (gds : Int) (stack : List (Option String)) : Layer := ⟨name, gds, true, 32, stack, 32, 32, 20, 20, 0, 0⟩

/-- Three metals, a via to devices, two vias. -/
def exLayers : List Layer := [lay "M1" 15 [], lay "M2" 17 [], lay "M3" 19 [], lay "V0" 14 [none, some "M1"], lay "V1" 21 [some "M1", some "M2"], lay "V2" 23 [some "M2", some "M3"]]
example : (read exLayers).isSome = true ∧ (metalNames exLayers).Nodup ∧ (onMetal exLayers).length = 2 ∧ (onDevice exLayers).length = 1 := by decide +kernel
example : ((read exLayers).map fun P => P.vias.map fun v => (v.name, v.lower, v.upper)) = some [("V1", some 0, some 1), ("V2", some 1, some 2), ("V0", none, some 0)] := by decide +kernel

/-- C133 does not hold: a via on a metal that is not in the file is taken to lie on the first one. -/
theorem C133_violated : ((read [lay "M1" 15 [], lay "M2" 17 [], lay "V5" 21 [some "M5", some "M6"]]).map fun P => P.vias.map fun v => (v.lower, v.upper))
    = some [(some 0, some 0)] := by decide +kernel

/-- C133 does not hold: a file is refused since a via has the GDS number 2, which is the place of the via before it. -/
theorem C133_violated_refused : (read [lay "M1" 15 [], lay "M2" 17 [], lay "M3" 19 [], lay "V1" 21 [some "M1", some "M2"], lay "V2" 2 [some "M2", some "M3"]]).isSome = false
    ∧ (read [lay "M1" 15 [], lay "M2" 17 [], lay "M3" 19 [], lay "V1" 21 [some "M1", some "M2"], lay "V2" 3 [some "M2", some "M3"]]).isSome = true := by decide +kernel

theorem rect_spec (m : Metal) (v : Via) (c cP w : Int) (hw : m.width = 2 * w) {x y : Int} (hx : v.wx = 2 * x) (hy : v.wy = 2 * y) :
    (m.vert = true → (metalRect m v c cP).Has (v.wx + 2 * cP) (v.wy + 2 * c) ∧ (metalRect m v c cP).x0 ≤ -w ∧ w ≤ (metalRect m v c cP).x1)
      ∧ (m.vert = false → (metalRect m v c cP).Has (v.wx + 2 * c) (v.wy + 2 * cP) ∧ (metalRect m v c cP).y0 ≤ -w ∧ w ≤ (metalRect m v c cP).y1) := by
  have h1 : v.wx.tdiv 2 = x := by rw [hx]; exact Int.mul_tdiv_cancel_left x (by decide)
  have h2 : v.wy.tdiv 2 = y := by rw [hy]; exact Int.mul_tdiv_cancel_left y (by decide)
  have h3 : m.width.tdiv 2 = w := by rw [hw]; exact Int.mul_tdiv_cancel_left w (by decide)
  have h4 : (-m.width).tdiv 2 = -w := by rw [Int.neg_tdiv, h3]
  unfold metalRect Box.Has
  rw [h1, h2, h3, h4]
  constructor
  · intro hv
    rw [if_pos hv]
    simp only
    omega
  · intro hv
    rw [if_neg (by rw [hv]; simp)]
    simp only
    omega

/-- The cut is in the middle of the metals, and these extend beyond it by the enclosures of the file: `A` along the metal, `P` across. Across, the metal is no narrower than a wire. -/
structure Encloses (b cut : Box) (vert : Bool) (width encA encP wx wy : Int) : Prop where
  middle : cut.Has (2 * wx) (2 * wy) ∧ cut.x0 = -wx ∧ cut.x1 = wx ∧ cut.y0 = -wy ∧ cut.y1 = wy
  along : if vert then b.y0 + 2 * encA ≤ cut.y0 ∧ cut.y1 + 2 * encA ≤ b.y1 else b.x0 + 2 * encA ≤ cut.x0 ∧ cut.x1 + 2 * encA ≤ b.x1
  across : if vert then b.x0 + 2 * encP ≤ cut.x0 ∧ cut.x1 + 2 * encP ≤ b.x1 else b.y0 + 2 * encP ≤ cut.y0 ∧ cut.y1 + 2 * encP ≤ b.y1
  wire : if vert then b.x0 ≤ -width ∧ width ≤ b.x1 else b.y0 ≤ -width ∧ width ≤ b.y1

/-- C134: the rectangles of a via on both of its metals enclose the cut as the file says (lengths are twice those of the file). -/
theorem C134_encloses {ls : List Layer} {P : Rules} (h : read ls = some P) {k : Nat} {v : Via} {l : Layer} (hv : P.vias[k]? = some v)
    (hl : (onMetal ls ++ onDevice ls)[k]? = some l) {i : Nat} {m : Layer} (hm : (ls.filter fun l => l.name.front == 'M')[i]? = some m) :
    (v.lower = some i → ∃ b, lowerRect P v = some b ∧ Encloses b (viaRect v) m.vert m.width l.encAL l.encPL l.wx l.wy)
      ∧ (v.upper = some i → ∃ b, upperRect P v = some b ∧ Encloses b (viaRect v) m.vert m.width l.encAH l.encPH l.wx l.wy) := by
  obtain ⟨r1, _, r3, _⟩ := read_spec h
  rw [r3, List.getElem?_map, hl] at hv
  have hv' : mk (metals ls) l = v := Option.some.inj hv
  have hmet : P.metals[i]? = some ⟨m.name, m.vert, 2 * m.width⟩ := by
    rw [r1]
    unfold metals isMetal
    rw [List.getElem?_map, hm]
    rfl
  have hx : v.wx = 2 * l.wx := by rw [← hv']; rfl
  have hy : v.wy = 2 * l.wy := by rw [← hv']; rfl
  have tx : v.wx.tdiv 2 = l.wx := by rw [hx]; exact Int.mul_tdiv_cancel_left _ (by decide)
  have ty : v.wy.tdiv 2 = l.wy := by rw [hy]; exact Int.mul_tdiv_cancel_left _ (by decide)
  have cut : (viaRect v).Has (2 * l.wx) (2 * l.wy) ∧ (viaRect v).x0 = -l.wx ∧ (viaRect v).x1 = l.wx ∧ (viaRect v).y0 = -l.wy ∧ (viaRect v).y1 = l.wy := by
    unfold viaRect Box.Has
    rw [tx, ty]
    simp only
    omega
  have gen : ∀ cA cP : Int, Encloses (metalRect ⟨m.name, m.vert, 2 * m.width⟩ v (2 * cA) (2 * cP)) (viaRect v) m.vert m.width cA cP l.wx l.wy := by
    intro cA cP
    obtain ⟨g1, g2⟩ := rect_spec ⟨m.name, m.vert, 2 * m.width⟩ v (2 * cA) (2 * cP) m.width rfl hx hy
    unfold Box.Has at g1 g2
    simp only at g1 g2
    rw [hx, hy] at g1 g2
    obtain ⟨_, c1, c2, c3, c4⟩ := id cut
    refine ⟨cut, ?_, ?_, ?_⟩
    all_goals
      by_cases hvt : m.vert = true
      · rw [if_pos hvt]
        have := g1 hvt
        omega
      · rw [if_neg hvt]
        have := g2 (by simpa using hvt)
        omega
  constructor
  · intro e
    refine ⟨_, by unfold lowerRect; rw [e, Option.bind_some, hmet]; rfl, ?_⟩
    have a1 : v.coverL = 2 * l.encAL := by rw [← hv']; rfl
    have a2 : v.coverLP = 2 * l.encPL := by rw [← hv']; rfl
    rw [a1, a2]
    exact gen _ _
  · intro e
    refine ⟨_, by unfold upperRect; rw [e, Option.bind_some, hmet]; rfl, ?_⟩
    have a1 : v.coverU = 2 * l.encAH := by rw [← hv']; rfl
    have a2 : v.coverUP = 2 * l.encPH := by rw [← hv']; rfl
    rw [a1, a2]
    exact gen _ _

example : ((read exLayers).bind fun P => (P.vias[0]?).bind fun v => lowerRect P v) = some ⟨-32, -72, 32, 72⟩ := by decide +kernel

end Verif.PdkCpp

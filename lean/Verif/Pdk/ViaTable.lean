import Mathlib.Data.List.Basic
import Mathlib.Data.List.Forall2

/-!
# C54: via drawings

Model of `Pdk.get_via_table` (`align/cell_fabric/pdk.py`, 166-190).

Simplifications: dimensions are integers; a layer is given by the entries that the function reads.
-/

namespace Verif.Pdk

/-- What `get_via_table` reads of a layer (167-184).  `stack` is used for vias, `direction` for metals (upper case). -/
structure Layer where
  name : String
  direction : Option String := none
  stack : Option (String × String) := none
  widthX : Int := 0
  widthY : Int := 0
  vencAL : Int := 0
  vencPL : Int := 0
  vencAH : Int := 0
  vencPH : Int := 0

abbrev Box := List Int

/-- `self.pdk[m]` -/
def find (pdk : List Layer) (m : String) : Option Layer := pdk.find? fun l => l.name == m

/-- `get_direction` (167-170): `true` for `H`; a missing layer, a missing direction or another one is an error. -/
def isH (pdk : List Layer) (m : String) : Option Bool :=
  (find pdk m).bind fun l => l.direction.bind fun d => if d = "V" ∨ d = "H" then some (d == "H") else none

/-- `swap_enc` (172-173). -/
def swapEnc (pdk : List Layer) (a p : Int) (m : String) : Option (Int × Int) :=
  (isH pdk m).map fun h => if h then (a, p) else (p, a)

/-- A dictionary display or `update`: a later entry with the same key replaces the value. -/
def put {α : Type} (d : List (String × α)) (k : String) (v : α) : List (String × α) :=
  if d.any fun e => e.1 == k then d.map fun e => if e.1 == k then (k, v) else e else d ++ [(k, v)]

/-- `x.startswith('V') and x != 'V0'` (179). -/
def isVia (x : String) : Bool := x.toList.head? == some 'V' && x != "V0"

/-- Lines 180-189 for one via. -/
def viaEntry (pdk : List Layer) (e : Layer) : Option (String × List (String × Box)) :=
  e.stack.bind fun st =>
    let x0 := 20 * e.widthX
    let y0 := 20 * e.widthY
    (swapEnc pdk (40 * e.vencAL) (40 * e.vencPL) st.1).bind fun el =>
      (swapEnc pdk (40 * e.vencAH) (40 * e.vencPH) st.2).map fun eh =>
        (e.name, put (put [(e.name, [-x0, -y0, x0, y0])]
          st.1 [-x0 - el.1, -y0 - el.2, x0 + el.1, y0 + el.2])
          st.2 [-x0 - eh.1, -y0 - eh.2, x0 + eh.1, y0 + eh.2])

/-- `get_via_table` (175-190). -/
def viaTable (pdk : List Layer) : Option (List (String × String × List (String × Box))) :=
  (pdk.filter fun e => isVia e.name).foldlM
    (fun tbl e => (viaEntry pdk e).map fun v => put tbl e.name v) []

/-! ## Specification -/

/-- The names of vias: they begin with V; V0 is not one. -/
def ViaName (x : String) : Prop := (∃ r : String, x = "V" ++ r) ∧ x ≠ "V0"

/-- A rectangle with center (0, 0) and the given size. -/
structure Centered (b : Box) (w h : Int) : Prop where
  four : b.length = 4
  cx : b.getD 0 0 + b.getD 2 0 = 0
  cy : b.getD 1 0 + b.getD 3 0 = 0
  width : b.getD 2 0 - b.getD 0 0 = w
  height : b.getD 3 0 - b.getD 1 0 = h

/-- `a` is inside of `b`. -/
def Within (a b : Box) : Prop :=
  b.getD 0 0 ≤ a.getD 0 0 ∧ b.getD 1 0 ≤ a.getD 1 0 ∧ a.getD 2 0 ≤ b.getD 2 0 ∧ a.getD 3 0 ≤ b.getD 3 0

/-- The enclosure in x and in y, from the enclosure along the metal and across it. -/
def encX (dir : String) (along across : Int) : Int := if dir = "H" then along else across
def encY (dir : String) (along across : Int) : Int := if dir = "H" then across else along

/-- The drawing of via `e` between metals of the given directions, in units of 1/40. -/
structure Drawing (e : Layer) (lower upper dl du : String) (boxes : List (String × Box)) : Prop where
  keys : boxes.map Prod.fst = [e.name, lower, upper]
  all : ∃ c l u, boxes = [(e.name, c), (lower, l), (upper, u)] ∧
    Centered c (40 * e.widthX) (40 * e.widthY) ∧
    Centered l (40 * e.widthX + 2 * (40 * encX dl e.vencAL e.vencPL))
      (40 * e.widthY + 2 * (40 * encY dl e.vencAL e.vencPL)) ∧
    Centered u (40 * e.widthX + 2 * (40 * encX du e.vencAH e.vencPH))
      (40 * e.widthY + 2 * (40 * encY du e.vencAH e.vencPH)) ∧
    (0 ≤ e.vencAL → 0 ≤ e.vencPL → Within c l) ∧ (0 ≤ e.vencAH → 0 ≤ e.vencPH → Within c u)

/-! ## Proofs -/

theorem isH_some {pdk : List Layer} {m : String} {b : Bool} (h : isH pdk m = some b) :
    ∃ l d, find pdk m = some l ∧ l.direction = some d ∧ (d = "V" ∨ d = "H") ∧ b = (d == "H") := by
  unfold isH at h
  rw [Option.bind_eq_some_iff] at h
  obtain ⟨l, hl, h⟩ := h
  rw [Option.bind_eq_some_iff] at h
  obtain ⟨d, hd, h⟩ := h
  split at h
  · rename_i hv
    exact ⟨l, d, hl, hd, hv, by simpa using h.symm⟩
  · cases h

theorem swapEnc_some {pdk : List Layer} {a p : Int} {m : String} {r : Int × Int} (h : swapEnc pdk a p m = some r) :
    ∃ l d, find pdk m = some l ∧ l.direction = some d ∧ (d = "V" ∨ d = "H") ∧
      r = (encX d a p, encY d a p) := by
  unfold swapEnc at h
  rw [Option.map_eq_some_iff] at h
  obtain ⟨b, hb, hr⟩ := h
  obtain ⟨l, d, h1, h2, h3, h4⟩ := isH_some hb
  refine ⟨l, d, h1, h2, h3, ?_⟩
  subst h4 hr
  rcases h3 with rfl | rfl <;> simp [encX, encY]

theorem encX_mul (d : String) (a p : Int) : encX d (40 * a) (40 * p) = 40 * encX d a p := by
  unfold encX; split <;> rfl

theorem encY_mul (d : String) (a p : Int) : encY d (40 * a) (40 * p) = 40 * encY d a p := by
  unfold encY; split <;> rfl

theorem enc_nonneg {d : String} {a p : Int} (ha : 0 ≤ a) (hp : 0 ≤ p) : 0 ≤ encX d a p ∧ 0 ≤ encY d a p := by
  unfold encX encY; split <;> exact ⟨by assumption, by assumption⟩

theorem viaEntry_drawing {pdk : List Layer} {e : Layer} {lower upper : String} {v : String × List (String × Box)}
    (hs : e.stack = some (lower, upper)) (h1 : lower ≠ e.name) (h2 : upper ≠ e.name) (h3 : lower ≠ upper)
    (h : viaEntry pdk e = some v) :
    v.1 = e.name ∧ ∃ ll dl lu du, find pdk lower = some ll ∧ ll.direction = some dl ∧ find pdk upper = some lu ∧
      lu.direction = some du ∧ Drawing e lower upper dl du v.2 := by
  unfold viaEntry at h
  rw [hs] at h
  simp only [Option.bind_some] at h
  rw [Option.bind_eq_some_iff] at h
  obtain ⟨el, hel, h⟩ := h
  rw [Option.map_eq_some_iff] at h
  obtain ⟨eh, heh, h⟩ := h
  obtain ⟨ll, dl, a1, a2, _, rfl⟩ := swapEnc_some hel
  obtain ⟨lu, du, b1, b2, _, rfl⟩ := swapEnc_some heh
  subst h
  refine ⟨rfl, ll, dl, lu, du, a1, a2, b1, b2, ?_⟩
  have e1 : (e.name == lower) = false := by simpa using h1.symm
  have e2 : (e.name == upper) = false := by simpa using h2.symm
  have e3 : (lower == upper) = false := by simpa using h3
  simp only [put, List.any_cons, List.any_nil, e1, e2, e3, Bool.or_false, Bool.false_eq_true, if_false,
    List.cons_append, List.nil_append, encX_mul, encY_mul]
  refine ⟨rfl, _, _, _, rfl, ?_, ?_, ?_, ?_, ?_⟩
  · constructor <;> simp <;> omega
  · constructor <;> simp <;> omega
  · constructor <;> simp <;> omega
  · intro ha hp
    have := enc_nonneg (d := dl) ha hp
    simp only [Within, List.getD_cons_zero, List.getD_cons_succ]
    omega
  · intro ha hp
    have := enc_nonneg (d := du) ha hp
    simp only [Within, List.getD_cons_zero, List.getD_cons_succ]
    omega

theorem put_fresh {α : Type} {d : List (String × α)} {k : String} (v : α) (h : k ∉ d.map Prod.fst) :
    put d k v = d ++ [(k, v)] := by
  unfold put
  rw [if_neg]
  intro hany
  rw [List.any_eq_true] at hany
  obtain ⟨e, he, hk⟩ := hany
  exact h (List.mem_map.mpr ⟨e, he, by simpa using hk⟩)

theorem fold_entries {pdk : List Layer} : ∀ {l : List Layer} {acc r : List (String × String × List (String × Box))},
    (l.map Layer.name).Nodup → (∀ e ∈ l, e.name ∉ acc.map Prod.fst) →
    l.foldlM (fun tbl e => (viaEntry pdk e).map fun v => put tbl e.name v) acc = some r →
    ∃ vs, List.Forall₂ (fun e v => viaEntry pdk e = some v) l vs ∧
      r = acc ++ (l.map Layer.name).zip vs
  | [], acc, r, _, _, h => by
    simp only [List.foldlM_nil, Option.pure_def, Option.some.injEq] at h
    exact ⟨[], .nil, by simp [h]⟩
  | e :: l, acc, r, hn, hf, h => by
    rw [List.foldlM_cons, Option.bind_eq_bind, Option.bind_eq_some_iff] at h
    obtain ⟨tbl, ht, h⟩ := h
    rw [Option.map_eq_some_iff] at ht
    obtain ⟨v, hv, rfl⟩ := ht
    rw [put_fresh v (hf e List.mem_cons_self)] at h
    rw [List.map_cons, List.nodup_cons] at hn
    obtain ⟨vs, h1, h2⟩ := fold_entries hn.2 (by
      intro x hx
      rw [List.map_append, List.mem_append, not_or]
      refine ⟨hf x (List.mem_cons_of_mem _ hx), ?_⟩
      simp only [List.map_cons, List.map_nil, List.mem_singleton]
      intro he
      exact hn.1 (he ▸ List.mem_map.mpr ⟨x, hx, rfl⟩)) h
    exact ⟨v :: vs, .cons hv h1, by simp [h2]⟩

theorem isVia_iff (x : String) : isVia x = true ↔ ViaName x := by
  unfold isVia ViaName
  simp only [Bool.and_eq_true, beq_iff_eq, bne_iff_ne]
  refine and_congr ⟨fun h => ?_, ?_⟩ Iff.rfl
  · cases hx : x.toList with
    | nil => rw [hx] at h; simp at h
    | cons a l =>
      rw [hx] at h
      have ha : a = 'V' := by simpa using h
      refine ⟨String.ofList l, ?_⟩
      rw [← String.toList_inj, hx, String.toList_append, ha]
      simp
  · rintro ⟨r, rfl⟩
    rw [String.toList_append]
    rfl

/-- **C54.**  For layers with different names, the table has one entry for each via (all but `V0`), in the order of
the layers.  Its drawing has the cut and the two metals, centered at the origin, with the size of the via, and
extended by the enclosures along and across the direction of each metal; the cut is inside of both metals if the
enclosures are not negative. -/
theorem C54_drawings {pdk : List Layer} (hn : (pdk.map Layer.name).Nodup) {tbl} (h : viaTable pdk = some tbl) :
    (tbl.map Prod.fst).Sublist (pdk.map Layer.name) ∧ (∀ x, x ∈ tbl.map Prod.fst ↔ x ∈ pdk.map Layer.name ∧ ViaName x) ∧
    ∀ e ∈ pdk, ViaName e.name → ∀ lower upper, e.stack = some (lower, upper) → lower ≠ e.name →
      upper ≠ e.name → lower ≠ upper →
      ∃ boxes ll dl lu du, (e.name, e.name, boxes) ∈ tbl ∧ find pdk lower = some ll ∧ ll.direction = some dl ∧
        find pdk upper = some lu ∧ lu.direction = some du ∧ Drawing e lower upper dl du boxes := by
  unfold viaTable at h
  have hn' : ((pdk.filter fun e => isVia e.name).map Layer.name).Nodup :=
    hn.sublist (List.filter_sublist.map _)
  obtain ⟨vs, h1, h2⟩ := fold_entries hn' (by simp) h
  have hlen := h1.length_eq
  have hnames : tbl.map Prod.fst = (pdk.map Layer.name).filter isVia := by
    rw [h2, List.nil_append, List.map_fst_zip (by simp [hlen]), List.filter_map]
    rfl
  refine ⟨by rw [hnames]; exact List.filter_sublist, fun x => by rw [hnames, List.mem_filter, isVia_iff], ?_⟩
  · intro e he hv lower upper hs g1 g2 g3
    rw [← isVia_iff] at hv
    have hm : e ∈ pdk.filter fun e => isVia e.name := List.mem_filter.mpr ⟨he, hv⟩
    obtain ⟨i, hi, rfl⟩ := List.mem_iff_getElem.mp hm
    have hi' : i < vs.length := hlen ▸ hi
    have hvi : viaEntry pdk _ = some vs[i] := (List.forall₂_iff_get.mp h1).2 i hi hi'
    obtain ⟨k1, ll, dl, lu, du, k2, k3, k4, k5, k6⟩ := viaEntry_drawing hs g1 g2 g3 hvi
    refine ⟨vs[i].2, ll, dl, lu, du, ?_, k2, k3, k4, k5, k6⟩
    rw [h2, List.nil_append]
    refine List.mem_iff_getElem.mpr ⟨i, by simp only [List.length_zip, List.length_map]; exact Nat.lt_min.mpr ⟨hi, hi'⟩, ?_⟩
    simp only [List.getElem_zip, List.getElem_map]
    exact Prod.ext rfl (Prod.ext k1 rfl)

/-- The table exists if every via joins two metals with a direction. -/
theorem C54_exists {pdk : List Layer}
    (h : ∀ e ∈ pdk, ViaName e.name → ∃ lower upper, e.stack = some (lower, upper) ∧
      (isH pdk lower).isSome ∧ (isH pdk upper).isSome) : (viaTable pdk).isSome := by
  unfold viaTable
  have hv : ∀ e ∈ pdk.filter (fun e => isVia e.name), ∃ v, viaEntry pdk e = some v := by
    intro e he
    obtain ⟨he, hi⟩ := List.mem_filter.mp he
    obtain ⟨lower, upper, hs, hl, hu⟩ := h e he ((isVia_iff _).1 hi)
    obtain ⟨bl, hbl⟩ := Option.isSome_iff_exists.mp hl
    obtain ⟨bu, hbu⟩ := Option.isSome_iff_exists.mp hu
    exact ⟨_, by simp [viaEntry, hs, swapEnc, hbl, hbu]; rfl⟩
  generalize (pdk.filter fun e => isVia e.name) = l at hv
  suffices H : ∀ acc, (l.foldlM (fun tbl e => (viaEntry pdk e).map fun v => put tbl e.name v) acc).isSome from H []
  induction l with
  | nil => intro acc; rfl
  | cons e l ih =>
    intro acc
    obtain ⟨v, hve⟩ := hv e List.mem_cons_self
    rw [List.foldlM_cons, hve]
    exact ih (fun x hx => hv x (List.mem_cons_of_mem _ hx)) _

/-- Two vias between three metals; the guard via `V0` is left out. -/
def sampleLayers : List Layer :=
  [{ name := "M1", direction := some "V" }, { name := "M2", direction := some "H" },
   { name := "M3", direction := some "V" }, { name := "V0", widthX := 2 },
   { name := "V1", stack := some ("M1", "M2"), widthX := 32, widthY := 34, vencAL := 20, vencPL := 1, vencAH := 18,
     vencPH := 0 },
   { name := "V2", stack := some ("M2", "M3"), widthX := 32, widthY := 32, vencAL := 20, vencAH := 20 }]

set_option synthInstance.maxSize 1000 in
example : viaTable sampleLayers = some
    [("V1", "V1", [("V1", [-640, -680, 640, 680]), ("M1", [-680, -1480, 680, 1480]), ("M2", [-1360, -680, 1360, 680])]),
     ("V2", "V2", [("V2", [-640, -640, 640, 640]), ("M2", [-1440, -640, 1440, 640]),
       ("M3", [-640, -1440, 640, 1440])])] := by decide +kernel

example : (sampleLayers.map Layer.name).Nodup := by decide

end Verif.Pdk

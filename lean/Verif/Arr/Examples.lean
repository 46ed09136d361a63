import Verif.Arr.Correct

/-! # C78: circuits -/

namespace Verif.Arr

open Verif.Sym (Inst Sub Lib getEl)

/-- A hash without collisions on the circuits below. -/
def exHash (t : String) : Nat := t.toList.foldl (fun h c => (31 * h + c.toNat) % 100000000) 7

def mos (name model d g s : String) : Inst := ⟨name, model, [("D", d), ("G", g), ("S", s), ("B", "VSS")], [("NF", "2")]⟩

/-- Two branches of two transistors each. -/
def exS : Sub := ⟨"BRANCHES", ["IN", "VDD", "VSS"],
  [mos "M0" "NMOS" "A" "IN" "VSS", mos "M1" "NMOS" "B" "IN" "VSS", mos "M2" "PMOS" "A" "CK" "VDD", mos "M3" "PMOS" "B" "CK" "VDD"]⟩

def exStop : List String := ["VDD", "VSS", "CK"]

/-- The rows of the example, and the hypotheses of the theorems. -/
example : findArray (view exHash Inst.model id [] exS) 100 exStop "IN" exStop = some (some (.rows [["M0", "M2"], ["M1", "M3"]])) ∧
    (exS.elems.map Inst.name).Nodup ∧ (∀ e ∈ exS.elems, e.name ≠ "IN") := by decide +kernel

example : Clear exHash exS where
  hash := by decide +kernel
  params := by decide +kernel
  models := by decide +kernel
  pins := by
    have h : ∀ e ∈ exS.elems, ∀ pn ∈ e.pins, (pn.1.toList.head?.all fun c => !Schema.isDig c) = true ∧ '_' ∉ pn.1.toList := by
      decide +kernel
    intro e he pn hpn
    obtain ⟨h1, h2⟩ := h e he pn hpn
    refine ⟨fun c hc => ?_, h2⟩
    rw [hc] at h1
    simpa using h1

/-- Inverters on one net between stop points: they are to be aligned, and no other instance is reached. -/
def exR : Sub := ⟨"ROW", ["IN", "VDD", "VSS"],
  [mos "M0" "NMOS" "A" "IN" "VSS", mos "M1" "NMOS" "B" "IN" "VSS", mos "M2" "PMOS" "VDD" "A" "VDD"]⟩

example : findArray (view exHash Inst.model id [] exR) 100 exStop "IN" exStop = some (some (.align ["M0", "M1"])) := by decide +kernel

/-- `Touch` and the pins of devices decide which instances are reached. -/
theorem path_names {s : Sub} {bar : List String} {x z : String} (N : List String) (hx : x ∈ N)
    (h : ∀ y ∈ N, ∀ z, Touch s y z → (∃ w ∈ Sym.weights [] s.elems y z, w ≠ "B" ∧ w ≠ "G") → z ∉ bar → z ∈ N)
    (hp : Path [] s bar x z) : z ∈ N := by
  induction hp with
  | start => exact hx
  | step _ t w b ih => exact h _ ih _ t w b

/-- The nodes that can be next. -/
theorem touch_mem {s : Sub} {x y : String} (h : Touch s x y) : y ∈ Sym.nodes s.elems := by
  rw [Sym.mem_nodes]
  obtain ⟨e, he, ⟨rfl, h⟩ | ⟨rfl, h⟩⟩ := h
  · exact .inr ⟨e, he, h⟩
  · exact .inl ⟨e, he, rfl⟩

instance (s : Sub) (x y : String) : Decidable (Touch s x y) := by unfold Touch; infer_instance

/-- The hypothesis of `C78_align_partial` for this circuit. -/
example : ∀ e ∈ exR.elems, "IN" ∈ e.pins.map Prod.snd → ∀ d ∈ exR.elems, Path [] exR ("IN" :: exStop) e.name d.name → Alike e d := by
  have key : ∀ x ∈ ["M0", "M1"], ∀ z, Path [] exR ("IN" :: exStop) x z → z ∈ [x, if x = "M0" then "A" else "B"] := by
    intro x hx z hp
    refine path_names _ (by simp) ?_ hp
    have h : ∀ x ∈ ["M0", "M1"], ∀ y ∈ [x, if x = "M0" then "A" else "B"], ∀ z ∈ Sym.nodes exR.elems, Touch exR y z →
        (∃ w ∈ Sym.weights [] exR.elems y z, w ≠ "B" ∧ w ≠ "G") → z ∉ "IN" :: exStop → z ∈ [x, if x = "M0" then "A" else "B"] := by
      decide +kernel
    exact fun y hy z ht => h x hx y hy z (touch_mem ht) ht
  have names : ∀ e ∈ exR.elems, "IN" ∈ e.pins.map Prod.snd → e.name ∈ ["M0", "M1"] := by decide +kernel
  have same : ∀ e ∈ exR.elems, ∀ d ∈ exR.elems, "IN" ∈ e.pins.map Prod.snd →
      d.name ∈ [e.name, if e.name = "M0" then "A" else "B"] → d = e := by decide +kernel
  intro e he hin d hd hp
  have := same e he d hd hin (key _ (names e he hin) _ hp)
  subst this
  exact ⟨rfl, fun _ _ => Iff.rfl, rfl⟩

/-! ## Violations -/

/-- **C78 violated: the search fails from an instance.**  The search for symmetry makes an instance with more than ten nets a start
point of arrays (`find_constraint.py`, 75-77); the nets around it have no key, and the search fails. -/
theorem C78_violated_fails :
    let s : Sub := ⟨"TOP", ["A", "B"], [⟨"X0", "BLOCK", [("P", "A"), ("Q", "B")], []⟩]⟩
    findArray (view exHash Inst.model id [] s) 100 [] "X0" [] = none ∧
    ¬ C78_statement s Inst.model "X0" (findArray (view exHash Inst.model id [] s) 100 [] "X0" []) := by
  intro s
  have h : findArray (view exHash Inst.model id [] s) 100 [] "X0" [] = none := by decide +kernel
  refine ⟨h, ?_⟩
  rintro ⟨f, hf, _⟩
  rw [h] at hf
  simp at hf

/-- **C78 violated: rows differ.**  One branch goes on, the other does not: it is left out of the comparison, and the array has a
row with two transistors and one with a single transistor. -/
theorem C78_violated_rows :
    let s : Sub := ⟨"TOP", ["IN", "VDD", "VSS"],
      [mos "M0" "NMOS" "A" "IN" "VSS", mos "M1" "NMOS" "B" "IN" "VSS", mos "M2" "PMOS" "A" "CK" "VDD"]⟩
    findArray (view exHash Inst.model id [] s) 100 exStop "IN" exStop = some (some (.rows [["M0", "M2"], ["M1"]])) ∧
    ¬ C78_statement s Inst.model "IN" (findArray (view exHash Inst.model id [] s) 100 exStop "IN" exStop) := by
  intro s
  have h : findArray (view exHash Inst.model id [] s) 100 exStop "IN" exStop = some (some (.rows [["M0", "M2"], ["M1"]])) := by
    decide +kernel
  refine ⟨h, ?_⟩
  rw [h]
  rintro ⟨f, hf, _, h2, _⟩
  have := h2 _ (Option.some.inj hf).symm ["M0", "M2"] (by simp) ["M1"] (by simp) "PMOS"
  revert this
  decide +kernel

/-- **C78 violated: what is to be aligned differs.**  As the first row has one instance, the instance that comes first by name is
taken from every row: a p transistor `M00` is to have the same layout as the n transistor `M0`. -/
theorem C78_violated_align :
    let s : Sub := ⟨"TOP", ["IN", "VDD", "VSS"],
      [mos "M0" "NMOS" "A" "IN" "VSS", mos "M1" "NMOS" "B" "IN" "VSS", mos "M00" "PMOS" "B" "CK" "VDD"]⟩
    findArray (view exHash Inst.model id [] s) 100 exStop "IN" exStop = some (some (.align ["M0", "M00"])) ∧
    ¬ C78_statement s Inst.model "IN" (findArray (view exHash Inst.model id [] s) 100 exStop "IN" exStop) := by
  intro s
  have h : findArray (view exHash Inst.model id [] s) 100 exStop "IN" exStop = some (some (.align ["M0", "M00"])) := by
    decide +kernel
  refine ⟨h, ?_⟩
  rw [h]
  rintro ⟨f, hf, h1, _⟩
  have := h1 _ (Option.some.inj hf).symm (mos "M0" "NMOS" "A" "IN" "VSS") (by simp [s]) (mos "M00" "PMOS" "B" "CK" "VDD") (by simp [s])
    (by simp [mos]) (by simp [mos])
  exact absurd this.model (by simp [mos])

/-- Two pairs on the net `IN`. -/
def exTwo : Sub := ⟨"TOP", ["IN", "VDD", "VSS"],
  [mos "M1" "NMOS" "VDD" "IN" "VSS", mos "M4" "NMOS" "VDD" "IN" "VSS", mos "M2" "PMOS" "VDD" "IN" "VSS", mos "M3" "PMOS" "VDD" "IN" "VSS"]⟩

/-- **C78 violated: all but one group are forgotten.**  The n pair `M1`, `M4` is alike, but only the p pair is found. -/
theorem C78_violated_last :
    findArray (view exHash Inst.model id [] exTwo) 100 exStop "IN" exStop = some (some (.align ["M2", "M3"])) ∧
    ¬ C78_statement exTwo Inst.model "IN" (findArray (view exHash Inst.model id [] exTwo) 100 exStop "IN" exStop) := by
  have h : findArray (view exHash Inst.model id [] exTwo) 100 exStop "IN" exStop = some (some (.align ["M2", "M3"])) := by
    decide +kernel
  refine ⟨h, ?_⟩
  rw [h]
  rintro ⟨f, hf, _, _, h3⟩
  obtain ⟨g, hg, hm⟩ := h3 (mos "M1" "NMOS" "VDD" "IN" "VSS") (by simp [exTwo]) (mos "M4" "NMOS" "VDD" "IN" "VSS") (by simp [exTwo])
    (by decide) (by decide) ⟨rfl, fun _ _ => Iff.rfl, rfl⟩ (fun _ => Iff.rfl)
  rw [← Option.some.inj hf] at hg
  simp only [Option.some.injEq] at hg
  subst hg
  revert hm
  decide +kernel

/-- **C78 violated: the result depends on the order of a set.**  Python gives no order to a set of strings; with one order the p
pair is found, with another the n pair. -/
theorem C78_violated_order :
    (∀ l : List String, l.reverse.Perm l) ∧
    findArray (view exHash Inst.model id [] exTwo) 100 exStop "IN" exStop ≠
      findArray (view exHash Inst.model List.reverse [] exTwo) 100 exStop "IN" exStop :=
  ⟨fun l => List.reverse_perm l, by decide +kernel⟩

end Verif.Arr

import Verif.Group.Share

/-! # C81: what the grouping gets wrong, and cases that meet the hypotheses -/

namespace Verif.Group

open Verif.Match (Inst Mod Lib neighbors addMod SameBy IsOcc Plain netOf mem_neighbors nets name_inj)

/-- A constraint that the user may write: its instances, in any case, are in the circuit, the new name is free, one of the instances has
a net to the outside, and the constraints inside are about the instances. -/
structure Meant (ports : List String) (pre : String → String) (l : List Inst) (k : Con) : Prop where
  plain : Plain l
  names : ∀ x ∈ k.instances, ∃ e ∈ l, e.name = up x
  fresh : ∀ e ∈ l, e.name ≠ k.instanceName
  out : ∃ e ∈ l, e.name ∈ k.instances.map up ∧ ∃ n ∈ nets e, n ∈ ports
  inner : ∀ c ∈ k.inner, ∀ x ∈ c, x ∈ k.instances
  fits : ∀ e ∈ l, (pre e.model).toList <+: e.name.toList

def mos (n d g s : String) : Inst := ⟨n, "NMOS", [("D", d), ("G", g), ("S", s)], []⟩

/-- Two transistors in a row. -/
def row2 : List Inst := [mos "M1" "A" "G" "B", mos "M2" "B" "G" "C"]

def preM : String → String := fun m => if m = "CAP" then "C" else "M"

def con2 (a b : String) (inner : List (List String)) : Con := ⟨[a, b], "X1", "GRP", inner⟩

theorem plain_row2 : Plain row2 := ⟨by decide +kernel, by decide +kernel, by decide +kernel⟩

theorem meant_row2 : Meant ["A", "C", "G"] preM row2 (con2 "M1" "m2" []) :=
  ⟨plain_row2, by decide +kernel, by decide +kernel, by decide +kernel, by decide +kernel, by decide +kernel⟩

theorem group_found {pre : String → String} {key : List Inst → String} {ports : List String} {st : St} {k : Con} {M : Mod}
    (h : ∀ x ∈ k.instances, up x ∈ st.elems.map Inst.name)
    (hl : st.lib.lookup (k.template ++ key (canon (picked st.elems k.instances))) = some M) :
    group pre key ports st k =
      if (!(((outer ports st.elems (picked st.elems k.instances)).map fun n => pName (netsIn (picked st.elems k.instances)) n).all
          fun p => M.pins.contains p) ||
        !(M.pins.all fun p => ((outer ports st.elems (picked st.elems k.instances)).map fun n =>
          pName (netsIn (picked st.elems k.instances)) n).contains p)) = true then none
      else some ⟨st.elems.diff (picked st.elems k.instances) ++
        [⟨k.instanceName, k.template ++ key (canon (picked st.elems k.instances)),
          (outer ports st.elems (picked st.elems k.instances)).map fun n => (pName (netsIn (picked st.elems k.instances)) n, n), []⟩],
        st.lib, st.cons⟩ := by
  unfold group
  simp only
  rw [if_neg (by simpa using h), hl]
  simp [addMod, hl]

/-- **C81 is violated (a).**  Instances written in lower case (in const.json or in the netlist) pass the check but stay outside the group: of `M1` and `m2` only the first
is in the new instance. -/
theorem C81_violated_case (key : List Inst → String) : ∃ ports st k, Meant ports preM st.elems k ∧
    (∃ st', group preM key ports st k = some st' ∧ mos "M2" "B" "G" "C" ∈ st'.elems) ∧
    ¬ C81_statement ports st k (group preM key ports st k) := by
  have hp : picked row2 ["M1", "m2"] = [mos "M1" "A" "G" "B"] := by decide +kernel
  refine ⟨_, ⟨row2, [], fun _ => []⟩, _, meant_row2, ?_, ?_⟩
  · refine ⟨_, rfl, ?_⟩
    simp only [con2, hp]
    exact List.mem_append_left _ (by decide +kernel)
  · rintro ⟨st', h, _, ⟨X, hX, hn, f, hs, hf, _⟩, _⟩
    have h1 := (hf (mos "M1" "A" "G" "B") (by decide +kernel)).2 ⟨"M1", by decide +kernel, by decide +kernel⟩
    have h2 := (hf (mos "M2" "B" "G" "C") (by decide +kernel)).2 ⟨"m2", by decide +kernel, by decide +kernel⟩
    have hX' : X.model = "GRP" ++ key (canon [mos "M1" "A" "G" "B"]) := by
      have he : st'.elems = [mos "M2" "B" "G" "C", ⟨"X1", "GRP" ++ key (canon [mos "M1" "A" "G" "B"]),
        [("P0", "A"), ("P1", "G"), ("P2", "B")], []⟩] := by
        have := Option.some.inj h
        rw [← this]
        rfl
      rw [he] at hX
      rcases List.mem_cons.1 hX with rfl | hX
      · exact absurd hn (by decide +kernel)
      · rw [List.mem_singleton] at hX; rw [hX]
    have hl : st'.lib.lookup X.model = some ⟨["P0", "P1", "P2"], canon [mos "M1" "A" "G" "B"]⟩ := by
      have : st'.lib = [("GRP" ++ key (canon [mos "M1" "A" "G" "B"]), ⟨["P0", "P1", "P2"], canon [mos "M1" "A" "G" "B"]⟩)] := by
        have := Option.some.inj h
        rw [← this]
        rfl
      rw [this, hX']
      simp [List.lookup]
    have occ : ∀ e ∈ row2, (f e).1 = some X → (f e).2 ∈ canon [mos "M1" "A" "G" "B"] := by
      intro e he h1
      rcases hs.maps e he with ⟨h3, _⟩ | ⟨i, _, M, hM, h4, h5⟩
      · rw [h3] at h1; cases h1
      · rw [h4, Option.some.injEq] at h1
        subst h1
        rw [hl, Option.some.injEq] at hM
        subst hM
        exact h5
    have o1 := occ _ (by decide +kernel) h1
    have o2 := occ _ (by decide +kernel) h2
    have : f (mos "M1" "A" "G" "B") = f (mos "M2" "B" "G" "C") := by
      apply Prod.ext
      · rw [h1, h2]
      · rw [canon_eq (by decide +kernel)] at o1 o2
        simp only [List.map_cons, List.map_nil, List.mem_singleton] at o1 o2
        rw [o1, o2]
    have := hs.inj _ (by decide +kernel) _ (by decide +kernel) this
    revert this
    decide +kernel

/-- **C81 is violated (b).**  The name of the subcircuit does not depend on its pins: after the group of a circuit where the middle net is
a port, the same group of a circuit where it is not fails. -/
theorem C81_violated_pins (key : List Inst → String) : ∃ ports st k,
    Meant ports preM st.elems k ∧ (∃ ports' st₀ st₁, Meant ports' preM st₀.elems k ∧ st₀.lib = [] ∧ group preM key ports' st₀ k = some st₁ ∧
      st.lib = st₁.lib) ∧ group preM key ports st k = none := by
  refine ⟨["A", "C", "G"], ⟨row2, [("GRP" ++ key (canon row2), ⟨["P0", "P1", "P2", "P3"], canon row2⟩)], fun _ => []⟩,
    con2 "M1" "M2" [], ?_, ⟨["A", "B", "C", "G"], ⟨row2, [], fun _ => []⟩, _, ?_, rfl, rfl, rfl⟩, ?_⟩
  · change Meant ["A", "C", "G"] preM row2 (con2 "M1" "M2" [])
    exact ⟨plain_row2, by decide +kernel, by decide +kernel, by decide +kernel, by decide +kernel, by decide +kernel⟩
  · exact ⟨plain_row2, by decide +kernel, by decide +kernel, by decide +kernel, by decide +kernel, by decide +kernel⟩
  · have hp : picked row2 ["M1", "M2"] = row2 := by decide +kernel
    have ho : outer ["A", "C", "G"] row2 row2 = ["A", "G", "C"] := by decide +kernel
    have := group_found (pre := preM) (key := key) (ports := ["A", "C", "G"]) (k := con2 "M1" "M2" [])
      (st := ⟨row2, [("GRP" ++ key (canon row2), ⟨["P0", "P1", "P2", "P3"], canon row2⟩)], fun _ => []⟩)
      (M := ⟨["P0", "P1", "P2", "P3"], canon row2⟩) (by simp only [con2]; decide +kernel) (by simp [con2, hp, List.lookup])
    rw [this, if_pos]
    simp only [con2, hp, ho]
    decide +kernel

def caps : List Inst := [⟨"C1", "CAP", [("PLUS", "A"), ("MINUS", "B")], []⟩, ⟨"C2", "CAP", [("PLUS", "A"), ("MINUS", "B")], []⟩]

/-- **C81 is violated (c).**  A group of capacitors fails: the elements of the subcircuit are called `M0` and `M1`, names that instances
of the model may not have. -/
theorem C81_violated_prefix (key : List Inst → String) : ∃ ports st k, Meant ports preM st.elems k ∧ group preM key ports st k = none := by
  refine ⟨["A", "B"], ⟨caps, [], fun _ => []⟩, con2 "C1" "C2" [], ?_, ?_⟩
  · exact ⟨⟨by decide +kernel, by decide +kernel, by decide +kernel⟩, by decide +kernel, by decide +kernel, by decide +kernel, by decide +kernel,
      by decide +kernel⟩
  · rfl

/-- **C81 is violated (d).**  If the subcircuit of the group is there already, the constraints for the group are lost. -/
theorem C81_violated_constraints (key : List Inst → String) : ∃ ports st k, Meant ports preM st.elems k ∧
    (∃ st₀ k₀ st₁, Meant ports preM st₀.elems k₀ ∧ st₀.lib = [] ∧ group preM key ports st₀ k₀ = some st₁ ∧ st.lib = st₁.lib ∧
      st.cons = st₁.cons) ∧
    (group preM key ports st k).isSome ∧ ¬ C81_statement ports st k (group preM key ports st k) := by
  have hp : picked row2 ["M1", "M2"] = row2 := by decide +kernel
  have ho : outer ["A", "C", "G"] row2 row2 = ["A", "G", "C"] := by decide +kernel
  have hg : group preM key ["A", "C", "G"] ⟨row2, [("GRP" ++ key (canon row2), ⟨["P0", "P1", "P3"], canon row2⟩)], fun _ => []⟩
      (con2 "M1" "M2" [["M1", "M2"]]) = some ⟨[⟨"X1", "GRP" ++ key (canon row2), [("P0", "A"), ("P1", "G"), ("P3", "C")], []⟩],
        [("GRP" ++ key (canon row2), ⟨["P0", "P1", "P3"], canon row2⟩)], fun _ => []⟩ := by
    have := group_found (pre := preM) (key := key) (ports := ["A", "C", "G"]) (k := con2 "M1" "M2" [["M1", "M2"]])
      (st := ⟨row2, [("GRP" ++ key (canon row2), ⟨["P0", "P1", "P3"], canon row2⟩)], fun _ => []⟩)
      (M := ⟨["P0", "P1", "P3"], canon row2⟩) (by simp only [con2]; decide +kernel) (by simp [con2, hp, List.lookup])
    rw [this, if_neg]
    · simp only [con2, hp, ho]
      have : row2.diff row2 = [] := by decide +kernel
      rw [this]
      have : (["A", "G", "C"].map fun n => (pName (netsIn row2) n, n)) = [("P0", "A"), ("P1", "G"), ("P3", "C")] := by decide +kernel
      rw [this]
      rfl
    · simp only [con2, hp, ho]
      decide +kernel
  refine ⟨["A", "C", "G"], ⟨row2, [("GRP" ++ key (canon row2), ⟨["P0", "P1", "P3"], canon row2⟩)], fun _ => []⟩,
    con2 "M1" "M2" [["M1", "M2"]], ?_, ⟨⟨row2, [], fun _ => []⟩, con2 "M1" "M2" [], _, ?_, rfl, rfl, rfl, ?_⟩, ?_, ?_⟩
  · change Meant ["A", "C", "G"] preM row2 (con2 "M1" "M2" [["M1", "M2"]])
    exact ⟨plain_row2, by decide +kernel, by decide +kernel, by decide +kernel, by decide +kernel, by decide +kernel⟩
  · exact ⟨plain_row2, by decide +kernel, by decide +kernel, by decide +kernel, by decide +kernel, by decide +kernel⟩
  · funext m
    simp
  · rw [hg]; rfl
  · rw [hg]
    rintro ⟨st', h, _, ⟨X, _, _, f, _, _, hc⟩, _⟩
    obtain ⟨d, hd, _⟩ := hc ["M1", "M2"] (by decide +kernel)
    rw [← Option.some.inj h] at hd
    simp at hd

/-- **C81 is violated (e).**  The same two transistors in the other order give another subcircuit. -/
theorem C81_violated_order : ∃ l l' names, l.Perm l' ∧ Plain l ∧ canon (picked l names) ≠ canon (picked l' names) :=
  ⟨row2, row2.reverse, ["M1", "M2"], (List.reverse_perm _).symm, plain_row2, by decide +kernel⟩

/-! ## Cases that meet the hypotheses -/

/-- `C81_same_circuit_partial`, `C81_succeeds_partial` -/
example : Plain row2 ∧ (∀ x ∈ ["M1", "M2"], up x = x) ∧ (∀ e ∈ row2, e.name ≠ "X1") ∧
    (group preM (fun _ => "_0") ["A", "C", "G"] ⟨row2, [], fun _ => []⟩ (con2 "M1" "M2" [["m1", "M2"]])).isSome :=
  ⟨plain_row2, by decide +kernel, by decide +kernel, by decide +kernel⟩

example : (∀ e ∈ row2, (preM e.model).toList <+: "M".toList) ∧ (∃ e ∈ picked row2 ["M1", "M2"], ∃ n ∈ nets e, n ∈ ["A", "C", "G"]) := by
  decide +kernel

/-- `C81_canonical` -/
example : List.Forall₂ (Renamed (fun s => "N" ++ s)) row2 [mos "M7" "NA" "NG" "NB", mos "M3" "NB" "NG" "NC"] ∧
    Function.Injective (fun s : String => "N" ++ s) :=
  ⟨.cons ⟨rfl, rfl, rfl⟩ (.cons ⟨rfl, rfl, rfl⟩ .nil), fun _ _ h => append_left_inj' h⟩

end Verif.Group

import Verif.Pex.Model
import Mathlib.Tactic.Ring
import Mathlib.Tactic.Linarith
import Mathlib.Algebra.BigOperators.Group.List.Basic

/-! # Properties C19 and C20 of parasitic extraction -/

namespace Verif.Pex

open Verif.RemoveDup (Rect Dir)

/-! ## Specification -/

/-- The segments go from `a` to `b` without gaps or overlaps. -/
def Tiles : Int → Int → List (Int × Int) → Prop
  | a, b, [] => a = b
  | a, b, (s, e) :: rest => s = a ∧ s < e ∧ Tiles e b rest

theorem Tiles.append {a b c : Int} {l₁ l₂ : List (Int × Int)} (h1 : Tiles a b l₁) (h2 : Tiles b c l₂) :
    Tiles a c (l₁ ++ l₂) := by
  induction l₁ generalizing a with
  | nil => simp only [Tiles] at h1; subst h1; exact h2
  | cons x l ih => exact ⟨h1.1, h1.2.1, ih h1.2.2⟩

theorem Tiles.bounds {a b : Int} {l : List (Int × Int)} (h : Tiles a b l) :
    a ≤ b ∧ ∀ x ∈ l, a ≤ x.1 ∧ x.1 < x.2 ∧ x.2 ≤ b := by
  induction l generalizing a with
  | nil => simp only [Tiles] at h; subst h; simp
  | cons x l ih =>
    obtain ⟨h1, h2, h3⟩ := h
    obtain ⟨h4, h5⟩ := ih h3
    refine ⟨by omega, fun y hy => ?_⟩
    rcases List.mem_cons.mp hy with rfl | hy
    · exact ⟨by omega, h2, h4⟩
    · have := h5 y hy; omega

/-- A tiling of a non-empty interval ends with a segment ending in `b`, and begins with one starting in `a`. -/
theorem Tiles.ends {a b : Int} {l : List (Int × Int)} (h : Tiles a b l) (hab : a < b) :
    (∃ x ∈ l, x.2 = b) ∧ ∃ x ∈ l, x.1 = a := by
  induction l generalizing a with
  | nil => simp only [Tiles] at h; omega
  | cons x l ih =>
    obtain ⟨h1, h2, h3⟩ := h
    refine ⟨?_, x, by simp, h1⟩
    by_cases he : x.2 = b
    · exact ⟨x, by simp, he⟩
    · have := h3.bounds.1
      obtain ⟨⟨y, hy, hyb⟩, -⟩ := ih h3 (by omega)
      exact ⟨y, List.mem_cons_of_mem _ hy, hyb⟩

/-! ## Cells -/

theorem numCells_spec (s e pitch : Int) (hp : 0 < pitch) (hse : s < e) :
    1 ≤ numCells s e pitch ∧ ((numCells s e pitch : Int) - 1) * pitch < e - s ∧
      e - s ≤ (numCells s e pitch : Int) * pitch := by
  unfold numCells
  rw [Int.fdiv_eq_ediv_of_nonneg _ (by omega)]
  have h1 := Int.mul_ediv_add_emod (-(e - s)) pitch
  have h2 := Int.emod_nonneg (-(e - s)) (b := pitch) (by omega)
  have h3 := Int.emod_lt_of_pos (-(e - s)) hp
  generalize hq : (-(e - s)) / pitch = q at *
  have hqneg : q < 0 := by
    by_contra h
    have : 0 ≤ pitch * q := Int.mul_nonneg (by omega) (by omega)
    omega
  have hc : (((-q).toNat : Nat) : Int) = -q := Int.toNat_of_nonneg (by omega)
  refine ⟨by omega, ?_, ?_⟩
  · rw [hc]
    have : (-q - 1) * pitch = -(pitch * q) - pitch := by ring
    omega
  · rw [hc]
    have : -q * pitch = -(pitch * q) := by ring
    omega

theorem cells_tile (pitch s e : Int) (hp : 0 < pitch) (n : Nat) (hn1 : 1 ≤ n)
    (hlo : ((n : Int) - 1) * pitch < e - s) (hhi : e - s ≤ n * pitch) :
    Tiles s e ((List.range n).map fun i : Nat =>
      (s + (i : Int) * pitch, if (i : Int) = (n : Int) - 1 then e else s + (i : Int) * pitch + pitch)) ∧
    ∀ x ∈ ((List.range n).map fun i : Nat =>
      (s + (i : Int) * pitch, if (i : Int) = (n : Int) - 1 then e else s + (i : Int) * pitch + pitch)),
      x.2 - x.1 ≤ pitch := by
  induction n generalizing s with
  | zero => omega
  | succ n ih =>
    have hcons : ((List.range (n + 1)).map fun i : Nat =>
        (s + (i : Int) * pitch, if (i : Int) = ((n + 1 : Nat) : Int) - 1 then e else s + (i : Int) * pitch + pitch)) =
        (s, if n = 0 then e else s + pitch) ::
        ((List.range n).map fun i : Nat =>
          (s + pitch + (i : Int) * pitch,
            if (i : Int) = (n : Int) - 1 then e else s + pitch + (i : Int) * pitch + pitch)) := by
      rw [List.range_succ_eq_map, List.map_cons, List.map_map]
      congr 1
      · by_cases h0 : n = 0
        · subst h0; simp
        · have h0' : ¬ (0 : Int) = n := by omega
          simp [h0, h0']
      · apply List.map_congr_left
        intro i _
        simp only [Function.comp_apply, Nat.succ_eq_add_one]
        have e1 : s + ((i + 1 : Nat) : Int) * pitch = s + pitch + (i : Int) * pitch := by push_cast; ring
        have e2 : (((i + 1 : Nat) : Int) = ((n + 1 : Nat) : Int) - 1) ↔ ((i : Int) = (n : Int) - 1) := by omega
        rw [e1]
        by_cases h : (i : Int) = (n : Int) - 1
        · rw [if_pos h, if_pos (e2.mpr h)]
        · rw [if_neg h, if_neg (fun h' => h (e2.mp h'))]
    rw [hcons]
    by_cases h0 : n = 0
    · subst h0
      simp only [if_true, List.range_zero, List.map_nil]
      push_cast at hlo hhi
      refine ⟨⟨rfl, by omega, rfl⟩, ?_⟩
      intro x hx
      simp only [List.mem_singleton] at hx
      subst hx; omega
    · rw [if_neg h0]
      have h1 : (((n + 1 : Nat) : Int) - 1) * pitch = ((n : Int) - 1) * pitch + pitch := by push_cast; ring
      have h2 : ((n + 1 : Nat) : Int) * pitch = (n : Int) * pitch + pitch := by push_cast; ring
      obtain ⟨t1, t2⟩ := ih (s + pitch) (by omega) (by omega) (by omega)
      refine ⟨⟨rfl, by omega, t1⟩, ?_⟩
      intro x hx
      rcases List.mem_cons.mp hx with rfl | hx
      · show s + pitch - s ≤ pitch; omega
      · exact t2 x hx

theorem stampCells_tile (pitch s e : Int) (hp : 0 < pitch) (hse : s ≤ e) :
    Tiles s e (stampCells pitch s e) ∧ ∀ x ∈ stampCells pitch s e, x.2 - x.1 ≤ pitch := by
  rcases Int.lt_or_eq_of_le hse with h | h
  · obtain ⟨h1, h2, h3⟩ := numCells_spec s e pitch hp h
    exact cells_tile pitch s e hp _ h1 h2 h3
  · subst h
    have : numCells s s pitch = 0 := by simp [numCells]
    simp [stampCells, this, Tiles]

/-! ## C19 -/

theorem extractLoop_some (pitch s e : Int) (hp : 0 < pitch) : ∀ (ps : List Int) (q : Int), q ≤ e →
    (q :: ps).Pairwise (· < ·) →
    Tiles q e (extractLoop pitch s e (some q) ps) ∧
    (∀ x ∈ extractLoop pitch s e (some q) ps, x.2 - x.1 ≤ pitch) ∧
    (∀ p ∈ ps, p ≤ e → ∃ x ∈ extractLoop pitch s e (some q) ps, x.2 = p) := by
  intro ps
  induction ps with
  | nil =>
    intro q hq _
    simp only [extractLoop, Option.getD_some]
    obtain ⟨h1, h2⟩ := stampCells_tile pitch q e hp hq
    exact ⟨h1, h2, by simp⟩
  | cons p ps ih =>
    intro q hq hs
    have hs' := List.pairwise_cons.mp hs
    have hqp : q < p := hs'.1 p (by simp)
    simp only [extractLoop]
    split
    · rename_i hpe
      obtain ⟨h1, h2⟩ := stampCells_tile pitch q e hp hq
      refine ⟨h1, h2, fun p' hp' hle => ?_⟩
      rcases List.mem_cons.mp hp' with rfl | hp'
      · omega
      · have := (List.pairwise_cons.mp hs'.2).1 p' hp'
        omega
    · rename_i hpe
      obtain ⟨h1, h2⟩ := stampCells_tile pitch q p hp (by omega)
      obtain ⟨h3, h4, h5⟩ := ih p (by omega) hs'.2
      refine ⟨h1.append h3, ?_, ?_⟩
      · intro x hx
        rcases List.mem_append.mp hx with hx | hx
        · exact h2 x hx
        · exact h4 x hx
      · intro p' hp' hle
        rcases List.mem_cons.mp hp' with rfl | hp'
        · obtain ⟨⟨x, hx, hx2⟩, -⟩ := h1.ends hqp
          exact ⟨x, List.mem_append_left _ hx, hx2⟩
        · obtain ⟨x, hx, hx2⟩ := h5 p' hp' hle
          exact ⟨x, List.mem_append_right _ hx, hx2⟩

/-- The first port after the start of the wire, if there is one, is on the wire. -/
def FirstPortOnWire (s e : Int) (ps : List Int) : Prop := (∃ p ∈ ps, s < p) → ∃ p ∈ ps, s < p ∧ p ≤ e

/-- The segments of a wire cover it from end to end without gap or overlap, none longer than the pitch, and every
port on the wire is an end of a segment, provided the first port after the start of the wire is on the wire. -/
theorem C19_segments_tile_partial (pitch s e : Int) (ps : List Int) (hp : 0 < pitch) (hse : s < e)
    (hsorted : ps.Pairwise (· < ·)) (hfirst : FirstPortOnWire s e ps) :
    Tiles s e (extract pitch s e ps) ∧
    (∀ x ∈ extract pitch s e ps, x.2 - x.1 ≤ pitch) ∧
    (∀ p ∈ ps, s ≤ p → p ≤ e → ∃ x ∈ extract pitch s e ps, x.1 = p ∨ x.2 = p) := by
  unfold extract
  induction ps with
  | nil =>
    simp only [extractLoop, Option.getD_none]
    obtain ⟨h1, h2⟩ := stampCells_tile pitch s e hp (by omega)
    exact ⟨h1, h2, by simp⟩
  | cons p ps ih =>
    have hs' := List.pairwise_cons.mp hsorted
    simp only [extractLoop]
    split
    · rename_i hsp
      have hpe : p ≤ e := by
        obtain ⟨p', hp', h1, h2⟩ := hfirst ⟨p, by simp, hsp⟩
        rcases List.mem_cons.mp hp' with rfl | hp'
        · exact h2
        · have := hs'.1 p' hp'; omega
      obtain ⟨h1, h2⟩ := stampCells_tile pitch s p hp (by omega)
      obtain ⟨h3, h4, h5⟩ := extractLoop_some pitch s e hp ps p hpe hsorted
      refine ⟨h1.append h3, ?_, ?_⟩
      · intro x hx
        rcases List.mem_append.mp hx with hx | hx
        · exact h2 x hx
        · exact h4 x hx
      · intro p' hp' _ hle
        rcases List.mem_cons.mp hp' with rfl | hp'
        · obtain ⟨⟨x, hx, hx2⟩, -⟩ := h1.ends hsp
          exact ⟨x, List.mem_append_left _ hx, Or.inr hx2⟩
        · obtain ⟨x, hx, hx2⟩ := h5 p' hp' hle
          exact ⟨x, List.mem_append_right _ hx, Or.inr hx2⟩
    · rename_i hsp
      obtain ⟨h1, h2, h3⟩ := ih hs'.2 (by
        rintro ⟨p', hp', h⟩
        obtain ⟨p'', hp'', h'⟩ := hfirst ⟨p', List.mem_cons_of_mem _ hp', h⟩
        rcases List.mem_cons.mp hp'' with rfl | hp''
        · omega
        · exact ⟨p'', hp'', h'⟩)
      refine ⟨h1, h2, fun p' hp' hs hle => ?_⟩
      rcases List.mem_cons.mp hp' with rfl | hp'
      · have : p' = s := by omega
        subst this
        obtain ⟨-, x, hx, hx1⟩ := h1.ends hse
        exact ⟨x, hx, Or.inl hx1⟩
      · exact h3 p' hp' hs hle

/-- A via on another wire of the same track makes the extraction run over the end of the wire: the wire [0, 100]
with the only port at 250 gets segments up to 250. -/
theorem C19_violated_far_port :
    extract 100 0 100 [250] = [(0, 100), (100, 200), (200, 250)] ∧ ¬ Tiles 0 100 (extract 100 0 100 [250]) := by
  have h : extract 100 0 100 [250] = [(0, 100), (100, 200), (200, 250)] := by decide
  refine ⟨h, fun ht => ?_⟩
  rw [h] at ht
  have := (ht.bounds).2 (200, 250) (by simp)
  omega

example : FirstPortOnWire 0 100 [-5, 30, 250] := fun _ => ⟨30, by simp, by omega, by omega⟩
example : extract 40 0 100 [-5, 30, 250] = [(0, 30), (30, 70), (70, 100)] := by decide

/-! ## Ports -/

/-- The position of a via along and across a metal of direction `d`. -/
def along (d : Dir) (v : ViaShape) : Int := match d with | .h => v.cx | _ => v.cy
def across (d : Dir) (v : ViaShape) : Int := match d with | .h => v.cy | _ => v.cx

theorem stampPort_spec (m : String) (d : Dir) (c : Int) (ps : List Int) (v : ViaShape) (e : Option String)
    (hn : ps.Nodup) :
    (stampPort m d c ps v e).Nodup ∧
    ∀ x, x ∈ stampPort m d c ps v e ↔ x ∈ ps ∨ (e = some m ∧ across d v * 2 = c ∧ along d v = x) := by
  have key : ∀ (pos : Int) (P : Prop) [Decidable P],
      (if P then (if pos ∈ ps then ps else ps ++ [pos]) else ps).Nodup ∧
      ∀ x, x ∈ (if P then (if pos ∈ ps then ps else ps ++ [pos]) else ps) ↔ x ∈ ps ∨ (P ∧ pos = x) := by
    intro pos P _
    by_cases hP : P
    · by_cases hm : pos ∈ ps
      · simp only [hP, hm, if_true, true_and]
        exact ⟨hn, fun x => ⟨Or.inl, fun h => h.elim id (fun h => h ▸ hm)⟩⟩
      · simp only [hP, hm, if_true, if_false, true_and]
        refine ⟨?_, fun x => ?_⟩
        · rw [List.nodup_append]
          refine ⟨hn, by simp, ?_⟩
          intro a ha b hb
          simp only [List.mem_singleton] at hb
          subst hb; exact fun h => hm (h ▸ ha)
        · rw [List.mem_append, List.mem_singleton, eq_comm]
    · simp only [hP, if_false, false_and, or_false]
      exact ⟨hn, fun _ => trivial⟩
  unfold stampPort
  by_cases he : e = some m
  · simp only [he, if_true, true_and]
    cases d with
    | h => exact key v.cx (v.cy * 2 = c)
    | v => exact key v.cy (v.cx * 2 = c)
    | via => exact key v.cy (v.cx * 2 = c)
  · simp only [he, if_false, false_and, or_false]
    exact ⟨hn, fun _ => trivial⟩

/-- The ports of a track are, in increasing order without repetition, the positions of the vias that have this
metal below or above and are centred on the track. -/
theorem ports_spec (m : String) (d : Dir) (c : Int) (vias : List ViaShape) :
    (ports m d c vias).Pairwise (· < ·) ∧
    ∀ x, x ∈ ports m d c vias ↔
      ∃ v ∈ vias, (v.below = some m ∨ v.above = some m) ∧ across d v * 2 = c ∧ along d v = x := by
  have fold : ∀ (vs : List ViaShape) (ps : List Int), ps.Nodup →
      (vs.foldl (fun ps v => stampPort m d c (stampPort m d c ps v v.below) v v.above) ps).Nodup ∧
      ∀ x, x ∈ vs.foldl (fun ps v => stampPort m d c (stampPort m d c ps v v.below) v v.above) ps ↔
        x ∈ ps ∨ ∃ v ∈ vs, (v.below = some m ∨ v.above = some m) ∧ across d v * 2 = c ∧ along d v = x := by
    intro vs
    induction vs with
    | nil => intro ps hn; simp [hn]
    | cons v vs ih =>
      intro ps hn
      obtain ⟨n1, m1⟩ := stampPort_spec m d c ps v v.below hn
      obtain ⟨n2, m2⟩ := stampPort_spec m d c _ v v.above n1
      obtain ⟨n3, m3⟩ := ih _ n2
      refine ⟨n3, fun x => ?_⟩
      rw [List.foldl_cons, m3, m2, m1]
      constructor
      · rintro (((h | h) | h) | ⟨w, hw, h⟩)
        · exact Or.inl h
        · exact Or.inr ⟨v, by simp, Or.inl h.1, h.2⟩
        · exact Or.inr ⟨v, by simp, Or.inr h.1, h.2⟩
        · exact Or.inr ⟨w, List.mem_cons_of_mem _ hw, h⟩
      · rintro (h | ⟨w, hw, h⟩)
        · exact Or.inl (Or.inl (Or.inl h))
        · rcases List.mem_cons.mp hw with rfl | hw
          · rcases h.1 with h' | h'
            · exact Or.inl (Or.inl (Or.inr ⟨h', h.2⟩))
            · exact Or.inl (Or.inr ⟨h', h.2⟩)
          · exact Or.inr ⟨w, hw, h⟩
  obtain ⟨hn, hm⟩ := fold vias [] List.nodup_nil
  constructor
  · have hs := pySort_pairwise (le := fun a b : Int => decide (a ≤ b))
      (by intro a b c h1 h2; simp only [decide_eq_true_eq] at *; omega)
      (by intro a b; rcases le_total a b with h | h <;> simp [h])
      (vias.foldl (fun ps v => stampPort m d c (stampPort m d c ps v v.below) v v.above) [])
    have hnd := (pySort_perm (le := fun a b : Int => decide (a ≤ b))
      (vias.foldl (fun ps v => stampPort m d c (stampPort m d c ps v v.below) v v.above) [])).nodup_iff.mpr hn
    exact (hs.and hnd).imp (fun ⟨h1, h2⟩ => by simp only [decide_eq_true_eq] at h1; omega)
  · intro x
    rw [ports, mem_pySort, hm]
    simp

/-- The hypothesis of `C19_segments_tile_partial` for a wire of a drawing: the first via after its start on its track
lies on it. It holds in particular if the wire carries all vias of its metal on its track. -/
def WireOk (vias : List ViaShape) (w : Wire) : Prop :=
  w.lo < w.hi ∧
  ((∃ v ∈ vias, (v.below = some w.layer ∨ v.above = some w.layer) ∧ across w.dir v * 2 = w.center2 ∧
      w.lo < along w.dir v) →
    ∃ v ∈ vias, (v.below = some w.layer ∨ v.above = some w.layer) ∧ across w.dir v * 2 = w.center2 ∧
      w.lo < along w.dir v ∧ along w.dir v ≤ w.hi)

/-- The cells of a wire tile it and have an end at every via on it. -/
theorem C19_wire_partial (pitch : Int) (hp : 0 < pitch) (vias : List ViaShape) (w : Wire) (hw : WireOk vias w) :
    Tiles w.lo w.hi ((wireCells pitch vias w).map fun c => (c.s, c.e)) ∧
    (∀ c ∈ wireCells pitch vias w, c.e - c.s ≤ pitch ∧ c.layer = w.layer ∧
      c.key = (w.node c.s, w.node c.e)) ∧
    (∀ v ∈ vias, (v.below = some w.layer ∨ v.above = some w.layer) → across w.dir v * 2 = w.center2 →
      w.lo ≤ along w.dir v → along w.dir v ≤ w.hi →
      ∃ c ∈ wireCells pitch vias w, c.key.1 = w.node (along w.dir v) ∨ c.key.2 = w.node (along w.dir v)) := by
  obtain ⟨hs, hm⟩ := ports_spec w.layer w.dir w.center2 vias
  have hfirst : FirstPortOnWire w.lo w.hi (ports w.layer w.dir w.center2 vias) := by
    rintro ⟨p, hp', hlt⟩
    obtain ⟨v, hv, h1, h2, h3⟩ := (hm p).mp hp'
    obtain ⟨v', hv', h1', h2', h3', h4'⟩ := hw.2 ⟨v, hv, h1, h2, by omega⟩
    exact ⟨along w.dir v', (hm _).mpr ⟨v', hv', h1', h2', rfl⟩, h3', h4'⟩
  obtain ⟨t1, t2, t3⟩ := C19_segments_tile_partial pitch w.lo w.hi _ hp hw.1 hs hfirst
  refine ⟨?_, ?_, ?_⟩
  · unfold wireCells
    rw [List.map_map]
    have : ((fun c : Cell => (c.s, c.e)) ∘ fun x : Int × Int =>
        match x with | (s, e) => (⟨(w.node s, w.node e), w.layer, s, e⟩ : Cell)) = id := by
      funext x; rfl
    rw [this, List.map_id]; exact t1
  · intro c hc
    obtain ⟨x, hx, rfl⟩ := List.mem_map.mp hc
    exact ⟨t2 x hx, rfl, rfl⟩
  · intro v hv h1 h2 h3 h4
    obtain ⟨x, hx, hx'⟩ := t3 _ ((hm _).mpr ⟨v, hv, h1, h2, rfl⟩) h3 h4
    refine ⟨_, List.mem_map.mpr ⟨x, hx, rfl⟩, ?_⟩
    rcases hx' with h | h
    · left; simp only [h]
    · right; simp only [h]

/-! ## C20 -/

/-- Sum of the resistances. -/
def totalR : List Comp → ℚ
  | [] => 0
  | .res _ _ v :: cs => v + totalR cs
  | .cap _ _ :: cs => totalR cs

/-- Sum of the capacitances at nodes of a net. -/
def totalC (net : String) : List Comp → ℚ
  | [] => 0
  | .res _ _ _ :: cs => totalC net cs
  | .cap a v :: cs => (if netOf a = net then v else 0) + totalC net cs

theorem totalR_append (a b : List Comp) : totalR (a ++ b) = totalR a + totalR b := by
  induction a with
  | nil => simp [totalR]
  | cons x a ih => cases x <;> simp only [List.cons_append, totalR, ih] <;> ring

theorem totalC_append (net : String) (a b : List Comp) :
    totalC net (a ++ b) = totalC net a + totalC net b := by
  induction a with
  | nil => simp [totalC]
  | cons x a ih => cases x <;> simp only [List.cons_append, totalC, ih] <;> ring

theorem summaryCap_eq (net : String) (cs : List Comp) : summaryCap net cs = totalC net cs := by
  unfold summaryCap
  have : ∀ (cs : List Comp) (acc : ℚ), cs.foldl (addCap net) acc = acc + totalC net cs := by
    intro cs
    induction cs with
    | nil => intro acc; simp [totalC]
    | cons x cs ih =>
      intro acc
      cases x with
      | res a b v => simp only [List.foldl_cons, totalC, addCap]; exact ih acc
      | cap a v =>
        simp only [List.foldl_cons, totalC, addCap]
        rw [ih]
        split <;> ring
  rw [this]; ring

/-- Sum over a list. -/
def sumOf {α : Type} (f : α → ℚ) (l : List α) : ℚ := (l.map f).sum

theorem components_total (usePi : Bool) (unitR unitC : String → ℚ) (net : String) (cells : List Cell)
    (hnet : ∀ c ∈ cells, c.key.2.net = c.key.1.net) :
    totalR (components usePi unitR unitC cells) = sumOf (fun c => unitR c.layer * dist c.s c.e) cells ∧
    totalC net (components usePi unitR unitC cells) =
      sumOf (fun c => if c.key.1.net = net then unitC c.layer * dist c.s c.e else 0) cells := by
  induction cells with
  | nil => simp [components, totalR, totalC, sumOf]
  | cons c cells ih =>
    obtain ⟨ih1, ih2⟩ := ih (fun c hc => hnet c (List.mem_cons_of_mem _ hc))
    have hc := hnet c (by simp)
    unfold components at ih1 ih2 ⊢
    rw [List.flatMap_cons, totalR_append, totalC_append, ih1, ih2]
    simp only [sumOf, List.map_cons, List.sum_cons]
    cases usePi
    · simp only [Bool.false_eq_true, if_false, tee, totalR, totalC, netOf]
      constructor
      · ring
      · by_cases hn : c.key.1.net = net
        · simp only [hn, if_true]; ring
        · simp only [hn, if_false]; ring
    · simp only [if_true, pi, totalR, totalC, netOf, hc]
      constructor
      · ring
      · by_cases hn : c.key.1.net = net
        · simp only [hn, if_true]; ring
        · simp only [hn, if_false]; ring

/-- Lengths of a tiling add up. -/
theorem Tiles.sum {a b : Int} {l : List (Int × Int)} (h : Tiles a b l) :
    sumOf (fun x => dist x.1 x.2) l = ((b - a : Int) : ℚ) / 1000 := by
  induction l generalizing a with
  | nil => simp only [Tiles] at h; subst h; simp [sumOf]
  | cons x l ih =>
    obtain ⟨h1, h2, h3⟩ := h
    have := ih h3
    simp only [sumOf, List.map_cons, List.sum_cons] at this ⊢
    rw [this]
    have hd : dist x.1 x.2 = ((x.2 - x.1 : Int) : ℚ) / 1000 := by
      unfold dist
      rw [abs_of_neg (by omega), neg_sub]
    rw [hd, ← h1]
    push_cast; ring

/-- Wires that could produce equal node names are apart. -/
def WiresApart (ws : List Wire) : Prop :=
  ws.Pairwise fun a b => a.layer = b.layer → a.dir = b.dir ∧
    (a.center2.fdiv 2 = b.center2.fdiv 2 → a.hi < b.lo ∨ b.hi < a.lo)

theorem foldl_dictSet (l acc : List Cell) (h : ((acc ++ l).map Cell.key).Nodup) :
    l.foldl dictSet acc = acc ++ l := by
  induction l generalizing acc with
  | nil => simp
  | cons c l ih =>
    have hc : acc.any (fun c' => c'.key == c.key) = false := by
      rw [List.any_eq_false]
      intro c' hc' heq
      simp only [beq_iff_eq] at heq
      rw [List.map_append, List.nodup_append] at h
      exact h.2.2 c'.key (List.mem_map_of_mem hc') c.key (by simp) heq
    rw [List.foldl_cons, dictSet, hc]
    simp only [Bool.false_eq_true, if_false]
    rw [ih _ (by simpa using h)]
    simp

theorem Tiles.starts_nodup {a b : Int} {l : List (Int × Int)} (h : Tiles a b l) : (l.map Prod.fst).Nodup := by
  induction l generalizing a with
  | nil => simp
  | cons x l ih =>
    obtain ⟨h1, h2, h3⟩ := h
    rw [List.map_cons, List.nodup_cons]
    refine ⟨?_, ih h3⟩
    intro hm
    obtain ⟨y, hy, hxy⟩ := List.mem_map.mp hm
    have := h3.bounds.2 y hy
    omega

theorem Wire.node_inj (a b : Wire) (p q : Int) (h : a.node p = b.node q) (hd : a.layer = b.layer → a.dir = b.dir) :
    a.net = b.net ∧ a.layer = b.layer ∧ a.center2.fdiv 2 = b.center2.fdiv 2 ∧ p = q := by
  have hl : a.layer = b.layer := by
    unfold Wire.node at h
    cases ha : a.dir <;> cases hb : b.dir <;> simp only [ha, hb, Node.mk.injEq] at h <;> exact h.2.1
  have hdir := hd hl
  unfold Wire.node at h
  rw [hdir] at h
  cases hb : b.dir <;> simp only [hb, Node.mk.injEq] at h <;> exact ⟨h.1, h.2.1, by omega, by omega⟩

theorem keys_nodup (pitch : Int) (hp : 0 < pitch) (vias : List ViaShape) (ws : List Wire)
    (hok : ∀ w ∈ ws, WireOk vias w) (hap : WiresApart ws) :
    ((ws.flatMap (wireCells pitch vias)).map Cell.key).Nodup := by
  induction ws with
  | nil => simp
  | cons w ws ih =>
    have hap' := List.pairwise_cons.mp hap
    rw [List.flatMap_cons, List.map_append, List.nodup_append]
    refine ⟨?_, ih (fun w hw => hok w (List.mem_cons_of_mem _ hw)) hap'.2, ?_⟩
    · obtain ⟨t1, t2, -⟩ := C19_wire_partial pitch hp vias w (hok w (by simp))
      have hs := t1.starts_nodup
      rw [List.map_map] at hs
      have hs' : ((wireCells pitch vias w).map Cell.s).Nodup := hs
      have hne : (wireCells pitch vias w).Pairwise (fun a b => a.s ≠ b.s) := List.pairwise_map.mp hs'
      refine List.pairwise_map.mpr (hne.imp_of_mem fun {a b} ha hb hab hk => ?_)
      rw [(t2 a ha).2.2, (t2 b hb).2.2, Prod.mk.injEq] at hk
      exact hab (Wire.node_inj w w _ _ hk.1 (fun _ => rfl)).2.2.2
    · intro k hk k' hk' heq
      obtain ⟨c, hc, rfl⟩ := List.mem_map.mp hk
      obtain ⟨c', hc', rfl⟩ := List.mem_map.mp hk'
      obtain ⟨w', hw', hc'⟩ := List.mem_flatMap.mp hc'
      obtain ⟨t1, t2, -⟩ := C19_wire_partial pitch hp vias w (hok w (by simp))
      obtain ⟨t1', t2', -⟩ := C19_wire_partial pitch hp vias w' (hok w' (List.mem_cons_of_mem _ hw'))
      have h1 := (t2 c hc).2.2
      have h2 := (t2' c' hc').2.2
      rw [h1, h2, Prod.mk.injEq] at heq
      have hrel := hap'.1 w' hw'
      obtain ⟨-, hl, hcc, hpq⟩ := Wire.node_inj w w' _ _ heq.1 (fun hl => (hrel hl).1)
      have b1 := t1.bounds.2 (c.s, c.e) (List.mem_map.mpr ⟨c, hc, rfl⟩)
      have b2 := t1'.bounds.2 (c'.s, c'.e) (List.mem_map.mpr ⟨c', hc', rfl⟩)
      have := (hrel hl).2 hcc
      simp only at b1 b2
      omega

/-- The extracted resistance is the sum over the wires of unit resistance times length (in micrometres), and the
capacitance of each net is the sum over its wires of unit capacitance times length, in both the pi and the tee form
(hence the two forms agree), provided the wires meet `WireOk` and those on one track are apart. -/
theorem C20_conserved_partial (pitch : Int) (hp : 0 < pitch) (vias : List ViaShape) (ws : List Wire)
    (hok : ∀ w ∈ ws, WireOk vias w) (hap : WiresApart ws) (usePi : Bool) (unitR unitC : String → ℚ) (net : String) :
    totalR (components usePi unitR unitC (netCells pitch vias ws)) =
      sumOf (fun w : Wire => unitR w.layer * (((w.hi - w.lo : Int) : ℚ) / 1000)) ws ∧
    summaryCap net (components usePi unitR unitC (netCells pitch vias ws)) =
      sumOf (fun w : Wire => unitC w.layer * (((w.hi - w.lo : Int) : ℚ) / 1000))
        (ws.filter fun w => decide (w.net = net)) := by
  have hcells : netCells pitch vias ws = ws.flatMap (wireCells pitch vias) := by
    have := foldl_dictSet (ws.flatMap (wireCells pitch vias)) [] (by simpa using keys_nodup pitch hp vias ws hok hap)
    simpa [netCells] using this
  have hnode : ∀ (w : Wire) (p : Int), (w.node p).net = w.net := by
    intro w p; unfold Wire.node; cases w.dir <;> rfl
  have hnet : ∀ c ∈ netCells pitch vias ws, c.key.2.net = c.key.1.net := by
    rw [hcells]
    intro c hc
    obtain ⟨w, hw, hc⟩ := List.mem_flatMap.mp hc
    have := ((C19_wire_partial pitch hp vias w (hok w hw)).2.1 c hc).2.2
    rw [this]; simp only [hnode]
  obtain ⟨h1, h2⟩ := components_total usePi unitR unitC net _ hnet
  rw [summaryCap_eq, h1, h2, hcells]
  clear h1 h2 hnet hcells hap
  induction ws with
  | nil => simp [sumOf]
  | cons w ws ih =>
    obtain ⟨ih1, ih2⟩ := ih (fun w hw => hok w (List.mem_cons_of_mem _ hw))
    obtain ⟨t1, t2, -⟩ := C19_wire_partial pitch hp vias w (hok w (by simp))
    have hsum : ∀ (f : Cell → ℚ) (u : ℚ), (∀ c ∈ wireCells pitch vias w, f c = u * dist c.s c.e) →
        ((wireCells pitch vias w).map f).sum = u * (((w.hi - w.lo : Int) : ℚ) / 1000) := by
      intro f u hf
      have := t1.sum
      rw [sumOf, List.map_map] at this
      rw [← this, List.map_congr_left hf]
      clear this hf t1 t2
      induction wireCells pitch vias w with
      | nil => simp
      | cons c l ih =>
        simp only [List.map_cons, List.sum_cons, Function.comp_apply] at ih ⊢
        rw [ih]; ring
    constructor
    · unfold sumOf at ih1 ⊢
      rw [List.flatMap_cons, List.map_append, List.sum_append, ih1, List.map_cons, List.sum_cons]
      congr 1
      exact hsum _ _ (fun c hc => by rw [(t2 c hc).2.1])
    · unfold sumOf at ih2 ⊢
      rw [List.flatMap_cons, List.map_append, List.sum_append, ih2]
      by_cases hn : w.net = net
      · rw [List.filter_cons_of_pos (by simpa using hn), List.map_cons, List.sum_cons]
        congr 1
        refine hsum _ _ (fun c hc => ?_)
        rw [(t2 c hc).2.2, (t2 c hc).2.1]
        simp only [hnode, hn, if_true]
      · rw [List.filter_cons_of_neg (by simpa using hn)]
        rw [hsum _ 0 (fun c hc => ?_)]
        · ring
        · rw [(t2 c hc).2.2]
          simp only [hnode, hn, if_false]; ring

/-- The two forms agree on the totals for any cells at all. -/
theorem C20_pi_tee_agree (unitR unitC : String → ℚ) (net : String) (cells : List Cell)
    (hnet : ∀ c ∈ cells, c.key.2.net = c.key.1.net) :
    totalR (components true unitR unitC cells) = totalR (components false unitR unitC cells) ∧
    totalC net (components true unitR unitC cells) = totalC net (components false unitR unitC cells) := by
  obtain ⟨h1, h2⟩ := components_total true unitR unitC net cells hnet
  obtain ⟨h3, h4⟩ := components_total false unitR unitC net cells hnet
  exact ⟨h1.trans h3.symm, h2.trans h4.symm⟩

/-- The example of `C19_violated_far_port` as a drawing: two wires of one track, 100 and 100 long, and a via on the
second. The cells add up to 300 instead of 200. -/
theorem C20_violated_far_port :
    let via : ViaShape := ⟨⟨248, -2, 252, 2⟩, some "M2", some "M3"⟩
    let ws : List Wire := [⟨"a", "M2", .h, 0, 0, 100⟩, ⟨"a", "M2", .h, 0, 200, 300⟩]
    ((netCells 100 [via] ws).map fun c => c.e - c.s).sum = 300 ∧
    (ws.map fun w => w.hi - w.lo).sum = 200 := by decide

/-- Two wires of one net on one track with the same extent but different widths are not merged by
`removeDuplicates`, but get the same node names, so only one of them is counted. -/
theorem C20_violated_same_names :
    let ws : List Wire := [⟨"a", "M2", .h, 0, 0, 100⟩, ⟨"a", "M2", .h, 0, 0, 100⟩]
    ((netCells 100 [] ws).map fun c => c.e - c.s).sum = 100 ∧
    (ws.map fun w => w.hi - w.lo).sum = 200 := by decide

example : WiresApart [⟨"a", "M2", .h, 0, 0, 100⟩, ⟨"a", "M2", .h, 0, 200, 300⟩, ⟨"b", "M3", .v, 0, 0, 100⟩] := by
  simp [WiresApart]
example : WireOk [⟨⟨48, -2, 52, 2⟩, some "M2", some "M3"⟩, ⟨⟨248, -2, 252, 2⟩, some "M2", some "M3"⟩]
    ⟨"a", "M2", .h, 0, 0, 100⟩ := by
  refine ⟨by decide, fun _ => ⟨_, List.mem_cons_self .., by decide⟩⟩

end Verif.Pex

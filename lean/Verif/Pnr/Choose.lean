import Verif.Pnr.SymNets
import Mathlib.Algebra.Order.Ring.Rat
import Mathlib.Algebra.BigOperators.Group.List.Basic
import Mathlib.Tactic.Linarith

/-!
# C123: the choice among the candidates of all nets

`GcellGlobalRouter::ILPSolveRouting` (`router/GcellGlobalRouter.cpp` 1410-1745; the second function of this name, from 1747 on, is a comment) writes an
integer program with a variable for every candidate of every net and one more for the congestion, and takes the candidates whose variables are 1.

Simplifications: the solver is a parameter: only that its values satisfy the rows and bounds is assumed, where that is said. The values are rational
numbers. The graph is given as the capacity of the first edge from a tile to another. Left out: the objective, the array of the values, which is
one too short for what is written to it, and the error codes.
-/

namespace Verif.Choose
open Verif.SymNets (Path)

/-! ## The code -/

/-- What is read of a net: the paths of its candidates, `global_sym` (`none` for -1). -/
structure Net where
  sts : List Path
  sym : Option Nat

/-- `ValArray` with `valIdx` (1449-1462): net, candidate, number; from the net `h` and the number `k` on. -/
def vals : List Net → Nat → Nat → List ((Nat × Nat) × Nat)
  | [], _, _ => []
  | n :: ns, h, k => (List.range n.sts.length).map (fun i => ((h, i), k + i)) ++ vals ns (h + 1) (k + n.sts.length)

/-- `NumOfVar` (1464). -/
def total (nets : List Net) : Nat := (vals nets 0 0).length

/-- `Nets.at(h).STs[i].valIdx`. -/
def valIdx (nets : List Net) (h i : Nat) : Option Nat := (vals nets 0 0).lookup (h, i)

/-- A row: the coefficients of columns (the first is 1), whether it is `LE` (else `EQ`), the right side. -/
structure Row where
  terms : List (Nat × Int)
  le : Bool
  rhs : Int

/-- The row of a net (1485-1520). -/
def oneRow (nets : List Net) (i : Nat) : List Row :=
  let ts := (vals nets 0 0).filterMap fun v => if v.1.1 = i then some (v.2 + 1, (1 : Int)) else none
  if ts = [] then [] else [⟨ts, false, 1⟩]

/-- The row for a candidate of a net and the same candidate of its counterpart (1529-1562). -/
def symRow (nets : List Net) (i s j : Nat) : Option Row :=
  (valIdx nets s j).bind fun vs => (valIdx nets i j).map fun vi =>
    ⟨(List.range (total nets)).filterMap fun v => if v = vs then some (vs + 1, 1) else if v = vi then some (vi + 1, -1) else none, false, 0⟩

/-- The rows for a net and its counterpart (1526-1566). -/
def symRows (nets : List Net) (i : Nat) : Option (List Row) :=
  match nets[i]? with
  | none => some []
  | some n =>
    match n.sym with
    | none => some []
    | some s => if s + 1 < nets.length then (List.range n.sts.length).mapM (symRow nets i s) else some []

/-- A link with its capacity and the numbers of the candidates noted for it: `Edges`, `Capacities`, `Edges_To_Var` (1577-1579). -/
abbrev Link := (Nat × Nat) × Int × List Nat

/-- One link of a path of the candidate with the number `v`, which counts from 1 (1586-1609). -/
def addLink (cap : Nat → Nat → Option Int) (v : Nat) (e : Nat × Nat) : List Link → List Link
  | [] => match cap e.1 e.2 with
    | some c => [(e, c, [])]
    | none => []
  | l :: ls => if (e.1 = l.1.1 ∧ e.2 = l.1.2) ∨ (e.1 = l.1.2 ∧ e.2 = l.1.1) then (l.1, l.2.1, l.2.2 ++ [v]) :: ls else l :: addLink cap v e ls

/-- The walk over all candidates (1581-1613). -/
def links (cap : Nat → Nat → Option Int) (nets : List Net) : List Link :=
  ((nets.flatMap (·.sts)).zipIdx 1).foldl (fun ls p => p.1.foldl (fun ls e => addLink cap p.2 e ls) ls) []

/-- The row of a link (1617-1657). -/
def capRow (N : Nat) (l : Link) : Row :=
  ⟨(List.range N).filterMap (fun j => if j ∈ l.2.2 then some (j + 1, 1) else none) ++ [(N + 1, -l.2.1)], true, 0⟩

/-- All rows. -/
def rows (cap : Nat → Nat → Option Int) (nets : List Net) : Option (List Row) :=
  ((List.range nets.length).mapM (symRows nets)).map fun sy =>
    (List.range nets.length).flatMap (oneRow nets) ++ sy.flatten ++ (links cap nets).map (capRow (total nets))

/-- What is stored: `STindex` of the nets (1728-1732), from the values `x` of the columns. -/
def pick (nets : List Net) (x : Nat → Rat) (old : List Nat) : List Nat :=
  (vals nets 0 0).foldl (fun st v => if x (v.2 + 1) = 1 then st.set v.1.1 v.1.2 else st) old

/-! ## What the property says -/

/-- The values satisfy a row. -/
def Row.Holds (r : Row) (x : Nat → Rat) : Prop :=
  if r.le then (r.terms.map fun t => (t.2 : Rat) * x t.1).sum ≤ r.rhs else (r.terms.map fun t => (t.2 : Rat) * x t.1).sum = r.rhs

/-- The values satisfy the program: all rows, `set_binary` for the first `N` columns, `set_bounds` for the next (1663-1667). -/
def Solves (rs : List Row) (N : Nat) (x : Nat → Rat) : Prop :=
  (∀ r ∈ rs, r.Holds x) ∧ (∀ c, 1 ≤ c → c ≤ N → x c = 0 ∨ x c = 1) ∧ 0 ≤ x (N + 1) ∧ x (N + 1) ≤ 1

/-- How many of the chosen candidates run over the link between two tiles. -/
def usage (nets : List Net) (st : List Nat) (a b : Nat) : Nat :=
  ((List.range nets.length).filter fun h =>
    decide (∃ n ∈ nets[h]?, ∃ i ∈ st[h]?, ∃ p ∈ n.sts[i]?, (a, b) ∈ p ∨ (b, a) ∈ p)).length

/-! ## Proofs -/

/-- The number of candidates of the nets before the net `h`. -/
def before (nets : List Net) (h : Nat) : Nat := ((nets.take h).map (·.sts.length)).sum

theorem mem_vals : ∀ {nets : List Net} {h k : Nat} {a : Nat × Nat} {v : Nat}, (a, v) ∈ vals nets h k ↔
    ∃ (d : Nat) (n : Net), nets[d]? = some n ∧ a.1 = h + d ∧ a.2 < n.sts.length ∧ v = k + before nets d + a.2
  | [], h, k, a, v => by simp [vals]
  | n :: ns, h, k, a, v => by
    unfold vals
    rw [List.mem_append, mem_vals (nets := ns)]
    constructor
    · rintro (h1 | ⟨d, m, h1, h2, h3, h4⟩)
      · obtain ⟨i, i1, i2⟩ := List.mem_map.1 h1
        rw [Prod.mk.injEq] at i2
        obtain ⟨rfl, rfl⟩ := i2
        exact ⟨0, n, rfl, rfl, List.mem_range.1 i1, by simp [before]⟩
      · refine ⟨d + 1, m, h1, by omega, h3, ?_⟩
        have : before (n :: ns) (d + 1) = n.sts.length + before ns d := by simp [before]
        omega
    · rintro ⟨d, m, h1, h2, h3, h4⟩
      cases d with
      | zero =>
        left
        have : n = m := by simpa using h1
        subst this
        refine List.mem_map.2 ⟨a.2, List.mem_range.2 h3, ?_⟩
        have h5 : before (n :: ns) 0 = 0 := by simp [before]
        rw [h5] at h4
        ext <;> simp <;> omega
      | succ d =>
        right
        refine ⟨d, m, h1, by omega, h3, ?_⟩
        have : before (n :: ns) (d + 1) = n.sts.length + before ns d := by simp [before]
        omega

theorem mem_vals0 {nets : List Net} {h i v : Nat} : ((h, i), v) ∈ vals nets 0 0 ↔
    ∃ n : Net, nets[h]? = some n ∧ i < n.sts.length ∧ v = before nets h + i := by
  rw [mem_vals]
  constructor
  · rintro ⟨d, n, h1, h2, h3, h4⟩
    simp only at h2 h3 h4
    obtain rfl : h = d := by omega
    exact ⟨n, h1, h3, by omega⟩
  · rintro ⟨n, h1, h2, h3⟩
    exact ⟨h, n, h1, by simp, h2, by simp; omega⟩

theorem vals_snd : ∀ (nets : List Net) (h k : Nat), (vals nets h k).map (·.2) = List.range' k (vals nets h k).length
  | [], _, _ => rfl
  | n :: ns, h, k => by
    unfold vals
    rw [List.map_append, vals_snd ns, List.map_map, List.length_append, List.length_map, List.length_range, ← List.range'_append_1]
    congr 1
    rw [List.range'_eq_map_range]
    rfl

theorem val_lt {nets : List Net} {a : Nat × Nat} {v : Nat} (h : (a, v) ∈ vals nets 0 0) : v < total nets := by
  have h1 : v ∈ (vals nets 0 0).map (·.2) := List.mem_map.2 ⟨_, h, rfl⟩
  rw [vals_snd, List.mem_range'_1] at h1
  unfold total
  omega

theorem lookup_unique {l : List ((Nat × Nat) × Nat)} {a : Nat × Nat} {v : Nat} (h : (a, v) ∈ l) (hu : ∀ w, (a, w) ∈ l → w = v) : l.lookup a = some v := by
  induction l with
  | nil => exact absurd h (by simp)
  | cons b l ih =>
    rw [List.lookup_cons]
    by_cases hb : a = b.1
    · have : (a == b.1) = true := by simpa using hb
      rw [this]
      have := hu b.2 (by rw [hb]; exact List.mem_cons_self)
      simp [this]
    · have h2 : (a == b.1) = false := by simpa using hb
      rw [h2]
      rcases List.mem_cons.1 h with e | e
      · exact absurd (congrArg (·.1) e) hb
      · exact ih e fun w hw => hu w (List.mem_cons_of_mem _ hw)

theorem valIdx_eq {nets : List Net} {h i : Nat} {n : Net} (hn : nets[h]? = some n) (hi : i < n.sts.length) : valIdx nets h i = some (before nets h + i) := by
  refine lookup_unique (mem_vals0.2 ⟨n, hn, hi, rfl⟩) fun w hw => ?_
  obtain ⟨_, _, _, h3⟩ := mem_vals0.1 hw
  exact h3

/-- The candidates of a net in the numbering. -/
theorem filter_vals : ∀ {nets : List Net} {h k d : Nat} {n : Net}, nets[d]? = some n →
    ((vals nets h k).filterMap fun v => if v.1.1 = h + d then some (v.2 + 1, (1 : Int)) else none)
      = (List.range n.sts.length).map fun i => (k + before nets d + i + 1, (1 : Int))
  | [], _, _, _, _, hd => absurd hd (by simp)
  | m :: ns, h, k, d, n, hd => by
    unfold vals
    rw [List.filterMap_append]
    have hno : ∀ (nets : List Net) (h k t : Nat), t < h → ((vals nets h k).filterMap fun v => if v.1.1 = t then some (v.2 + 1, (1 : Int)) else none) = [] := by
      intro nets h k t ht
      rw [List.filterMap_eq_nil_iff]
      intro x hx
      obtain ⟨d, _, _, h2, _⟩ := mem_vals.1 (show (x.1, x.2) ∈ _ from hx)
      rw [if_neg (by omega)]
    cases d with
    | zero =>
      have : m = n := by simpa using hd
      subst this
      rw [hno _ _ _ _ (by omega), List.append_nil, List.filterMap_map]
      have hb : before (m :: ns) 0 = 0 := by simp [before]
      rw [hb, ← List.filterMap_eq_map]
      congr 1
      funext i
      simp
    | succ d =>
      have h1 : (((List.range m.sts.length).map fun i => ((h, i), k + i)).filterMap fun v => if v.1.1 = h + (d + 1) then some (v.2 + 1, (1 : Int)) else none) = [] := by
        rw [List.filterMap_eq_nil_iff]
        intro x hx
        obtain ⟨i, _, rfl⟩ := List.mem_map.1 hx
        rw [if_neg (by simp)]
      rw [h1, List.nil_append]
      have h2 := filter_vals (nets := ns) (h := h + 1) (k := k + m.sts.length) (d := d) (n := n) hd
      have h3 : h + 1 + d = h + (d + 1) := by omega
      rw [h3] at h2
      rw [h2]
      have : before (m :: ns) (d + 1) = m.sts.length + before ns d := by simp [before]
      rw [this]
      congr 1
      funext i
      congr 1
      omega

/-- Numbers that are 0 or 1 with sum 1: exactly one is 1. -/
theorem one_of_sum {f : Nat → Rat} : ∀ {n : Nat}, (∀ i < n, f i = 0 ∨ f i = 1) → ((List.range n).map f).sum = 1 →
    ∃ j < n, f j = 1 ∧ ∀ i < n, f i = 1 → i = j := by
  have hpos : ∀ {n : Nat}, (∀ i < n, f i = 0 ∨ f i = 1) → 0 ≤ ((List.range n).map f).sum ∧ ∀ i < n, f i = 1 → 1 ≤ ((List.range n).map f).sum := by
    intro n
    induction n with
    | zero => intro _; exact ⟨by simp, fun i hi => absurd hi (by omega)⟩
    | succ n ih =>
      intro h
      obtain ⟨i1, i2⟩ := ih fun i hi => h i (by omega)
      rw [List.range_succ, List.map_append, List.sum_append]
      simp only [List.map_cons, List.map_nil, List.sum_cons, List.sum_nil, add_zero]
      refine ⟨?_, fun i hi hf => ?_⟩
      · rcases h n (by omega) with e | e <;> rw [e] <;> linarith
      · by_cases hin : i = n
        · rw [← hin, hf]; subst hin; linarith
        · have := i2 i (by omega) hf
          rcases h n (by omega) with e | e <;> rw [e] <;> linarith
  intro n
  induction n with
  | zero => intro _ h; exact absurd h (by simp)
  | succ n ih =>
    intro h hs
    rw [List.range_succ, List.map_append, List.sum_append] at hs
    simp only [List.map_cons, List.map_nil, List.sum_cons, List.sum_nil, add_zero] at hs
    have hb : ∀ i < n, f i = 0 ∨ f i = 1 := fun i hi => h i (by omega)
    rcases h n (by omega) with e | e
    · rw [e, add_zero] at hs
      obtain ⟨j, j1, j2, j3⟩ := ih hb hs
      refine ⟨j, by omega, j2, fun i hi hf => ?_⟩
      by_cases hin : i = n
      · rw [hin, e] at hf; exact absurd hf (by norm_num)
      · exact j3 i (by omega) hf
    · refine ⟨n, by omega, e, fun i hi hf => ?_⟩
      by_contra hin
      have := (hpos hb).2 i (by omega) hf
      rw [e] at hs
      linarith

theorem pick_length (nets : List Net) (x : Nat → Rat) (old : List Nat) : (pick nets x old).length = old.length := by
  unfold pick
  induction vals nets 0 0 generalizing old with
  | nil => rfl
  | cons v l ih =>
    rw [List.foldl_cons, ih]
    split <;> simp

theorem pick_get {x : Nat → Rat} {h j : Nat} : ∀ {l : List ((Nat × Nat) × Nat)} {old : List Nat}, h < old.length →
    (∀ i v, ((h, i), v) ∈ l → x (v + 1) = 1 → i = j) → ((∃ v, ((h, j), v) ∈ l ∧ x (v + 1) = 1) ∨ old[h]? = some j) →
    (l.foldl (fun st v => if x (v.2 + 1) = 1 then st.set v.1.1 v.1.2 else st) old)[h]? = some j
  | [], old, _, _, he => by
    rcases he with ⟨v, h1, _⟩ | h1
    · exact absurd h1 (by simp)
    · exact h1
  | w :: l, old, hl, hu, he => by
    rw [List.foldl_cons]
    by_cases hw : x (w.2 + 1) = 1
    · rw [if_pos hw]
      refine pick_get (by simpa using hl) (fun i v hv => hu i v (List.mem_cons_of_mem _ hv)) ?_
      by_cases hwh : w.1.1 = h
      · right
        have hj := hu w.1.2 w.2 (by rw [← hwh]; exact List.mem_cons_self) hw
        rw [hwh, List.getElem?_set_self hl, hj]
      · rcases he with ⟨v, h1, h2⟩ | h1
        · rcases List.mem_cons.1 h1 with e | e
          · exact absurd (by rw [← e]) hwh
          · exact Or.inl ⟨v, e, h2⟩
        · right
          rw [List.getElem?_set_ne hwh, h1]
    · rw [if_neg hw]
      refine pick_get hl (fun i v hv => hu i v (List.mem_cons_of_mem _ hv)) ?_
      rcases he with ⟨v, h1, h2⟩ | h1
      · rcases List.mem_cons.1 h1 with e | e
        · rw [← e] at hw; exact absurd h2 hw
        · exact Or.inl ⟨v, e, h2⟩
      · exact Or.inr h1

/-- In a solution exactly one candidate of a net has the value 1, and it is stored. -/
theorem one_spec {cap : Nat → Nat → Option Int} {nets : List Net} {rs : List Row} {x : Nat → Rat} {old : List Nat} (hr : rows cap nets = some rs)
    (hx : Solves rs (total nets) x) (ho : old.length = nets.length) {h : Nat} {n : Net} (hn : nets[h]? = some n) (hne : n.sts ≠ []) :
    ∃ j < n.sts.length, (pick nets x old)[h]? = some j ∧ x (before nets h + j + 1) = 1 ∧ ∀ i < n.sts.length, x (before nets h + i + 1) = 1 → i = j := by
  unfold rows at hr
  obtain ⟨sy, _, hr⟩ := Option.map_eq_some_iff.1 hr
  have hlt : h < nets.length := by
    rw [List.getElem?_eq_some_iff] at hn
    exact hn.1
  have hf := filter_vals (nets := nets) (h := 0) (k := 0) (d := h) hn
  simp only [Nat.zero_add] at hf
  have hmem : ⟨(List.range n.sts.length).map fun i => (before nets h + i + 1, (1 : Int)), false, 1⟩ ∈ rs := by
    rw [← hr]
    refine List.mem_append_left _ (List.mem_append_left _ (List.mem_flatMap.2 ⟨h, List.mem_range.2 hlt, ?_⟩))
    unfold oneRow
    simp only
    rw [hf]
    have : n.sts.length ≠ 0 := by simpa using hne
    rw [if_neg (by simpa using hne)]
    exact List.mem_singleton.2 rfl
  have hv := hx.1 _ hmem
  unfold Row.Holds at hv
  simp only [Bool.false_eq_true, if_false, List.map_map] at hv
  have hb : ∀ i < n.sts.length, x (before nets h + i + 1) = 0 ∨ x (before nets h + i + 1) = 1 := by
    intro i hi
    have := val_lt (mem_vals0.2 ⟨n, hn, hi, rfl⟩)
    exact hx.2.1 _ (by omega) (by omega)
  have hs : ((List.range n.sts.length).map fun i => x (before nets h + i + 1)).sum = 1 := by
    rw [← show ((1 : Int) : Rat) = 1 by norm_num, ← hv]
    congr 2
    funext i
    simp
  obtain ⟨j, j1, j2, j3⟩ := one_of_sum hb hs
  refine ⟨j, j1, ?_, j2, j3⟩
  unfold pick
  refine pick_get (by omega) (fun i v hv h1 => ?_) (Or.inl ⟨_, mem_vals0.2 ⟨n, hn, j1, rfl⟩, j2⟩)
  obtain ⟨m, k1, k2, k3⟩ := mem_vals0.1 hv
  rw [hn] at k1
  rw [← Option.some.inj k1] at k2
  exact j3 i k2 (k3 ▸ h1)

/-- C123, in part: if the solver gives a solution, one of its candidates is stored for every net that has any. -/
theorem C123_one_partial {cap : Nat → Nat → Option Int} {nets : List Net} {rs : List Row} {x : Nat → Rat} {old : List Nat} (hr : rows cap nets = some rs)
    (hx : Solves rs (total nets) x) (ho : old.length = nets.length) {h : Nat} {n : Net} (hn : nets[h]? = some n) (hne : n.sts ≠ []) :
    ∃ j < n.sts.length, (pick nets x old)[h]? = some j := by
  obtain ⟨j, j1, j2, _⟩ := one_spec hr hx ho hn hne
  exact ⟨j, j1, j2⟩

theorem mapM_mem {α β : Type} {f : α → Option β} : ∀ {l : List α} {r : List β}, l.mapM f = some r → ∀ a ∈ l, ∃ b ∈ r, f a = some b
  | [], _, _, a, ha => absurd ha (by simp)
  | c :: l, r, h, a, ha => by
    rw [List.mapM_cons] at h
    obtain ⟨y, hy, h⟩ := Option.bind_eq_some_iff.1 h
    obtain ⟨ys, hys, h⟩ := Option.bind_eq_some_iff.1 h
    have hr : r = y :: ys := (Option.some.inj h).symm
    rw [hr]
    rcases List.mem_cons.1 ha with e | e
    · rw [e]; exact ⟨y, List.mem_cons_self, hy⟩
    · obtain ⟨b, b1, b2⟩ := mapM_mem hys a e
      exact ⟨b, List.mem_cons_of_mem _ b1, b2⟩

theorem sum_pair {N a b : Nat} (hab : a ≠ b) (ha : a < N) (hb : b < N) (x : Nat → Rat) :
    (((List.range N).filterMap fun v => if v = a then some (a + 1, (1 : Int)) else if v = b then some (b + 1, -1) else none).map
      fun t => ((t.2 : Int) : Rat) * x t.1).sum = x (a + 1) - x (b + 1) := by
  have : ∀ M : Nat, (((List.range M).filterMap fun v => if v = a then some (a + 1, (1 : Int)) else if v = b then some (b + 1, -1) else none).map
      fun t => ((t.2 : Int) : Rat) * x t.1).sum = (if a < M then x (a + 1) else 0) - (if b < M then x (b + 1) else 0) := by
    intro M
    induction M with
    | zero => simp
    | succ M ih =>
      rw [List.range_succ, List.filterMap_append, List.map_append, List.sum_append, ih]
      by_cases h1 : M = a
      · subst h1
        rw [if_neg (Nat.lt_irrefl _), if_pos (Nat.lt_succ_self _)]
        have hbM : (b < M + 1) = (b < M) := propext ⟨fun _ => by omega, fun _ => by omega⟩
        simp only [hbM]
        simp
        linarith
      · by_cases h2 : M = b
        · subst h2
          rw [if_neg (Nat.lt_irrefl _), if_pos (Nat.lt_succ_self _)]
          have haM : (a < M + 1) = (a < M) := propext ⟨fun _ => by omega, fun _ => by omega⟩
          simp only [haM]
          simp [h1]
          linarith
        · have hbM : (b < M + 1) = (b < M) := propext ⟨fun _ => by omega, fun _ => by omega⟩
          have haM : (a < M + 1) = (a < M) := propext ⟨fun _ => by omega, fun _ => by omega⟩
          simp only [hbM, haM]
          simp [h1, h2]
  rw [this N, if_pos ha, if_pos hb]

/-- The rows of a net with its counterpart make the values of their candidates equal. -/
theorem sym_eq {cap : Nat → Nat → Option Int} {nets : List Net} {rs : List Row} {x : Nat → Rat} (hr : rows cap nets = some rs)
    (hx : Solves rs (total nets) x) {i s : Nat} {n m : Net} (hn : nets[i]? = some n) (hm : nets[s]? = some m) (his : i ≠ s) (hs : n.sym = some s)
    (hl : s + 1 < nets.length) (hlen : n.sts.length = m.sts.length) {j : Nat} (hj : j < n.sts.length) :
    x (before nets s + j + 1) = x (before nets i + j + 1) := by
  unfold rows at hr
  obtain ⟨sy, hsy, hr⟩ := Option.map_eq_some_iff.1 hr
  have hlt : i < nets.length := by
    rw [List.getElem?_eq_some_iff] at hn
    exact hn.1
  obtain ⟨rr, r1, r2⟩ := mapM_mem hsy i (List.mem_range.2 hlt)
  unfold symRows at r2
  rw [hn] at r2
  simp only at r2
  rw [hs] at r2
  simp only at r2
  rw [if_pos hl] at r2
  obtain ⟨r, r3, r4⟩ := mapM_mem r2 j (List.mem_range.2 hj)
  have hmem : r ∈ rs := by
    rw [← hr]
    exact List.mem_append_left _ (List.mem_append_right _ (List.mem_flatten.2 ⟨rr, r1, r3⟩))
  have hv := hx.1 r hmem
  unfold symRow at r4
  rw [valIdx_eq hm (hlen ▸ hj), valIdx_eq hn hj] at r4
  simp only [Option.bind_some, Option.map_some, Option.some.injEq] at r4
  rw [← r4] at hv
  unfold Row.Holds at hv
  simp only [Bool.false_eq_true, if_false] at hv
  have ha := val_lt (mem_vals0.2 ⟨m, hm, hlen ▸ hj, rfl⟩)
  have hb := val_lt (mem_vals0.2 ⟨n, hn, hj, rfl⟩)
  have hne : before nets s + j ≠ before nets i + j := by
    have hmono : ∀ {a b : Nat} {k : Net}, nets[a]? = some k → a < b → before nets a + k.sts.length ≤ before nets b := by
      intro a b k hk hab
      unfold before
      have h1 : nets.take b = nets.take a ++ (nets.take b).drop a := by
        conv_lhs => rw [← List.take_append_drop a (nets.take b)]
        rw [List.take_take, Nat.min_eq_left (by omega)]
      have h2 : (nets.take b).drop a = k :: (nets.take b).drop (a + 1) := by
        have hget : (nets.take b)[a]? = some k := by rw [List.getElem?_take, if_pos hab, hk]
        obtain ⟨hlt, hget⟩ := List.getElem?_eq_some_iff.1 hget
        rw [List.drop_eq_getElem_cons hlt, hget]
      rw [h1, h2, List.map_append, List.sum_append, List.map_cons, List.sum_cons]
      omega
    rcases Nat.lt_or_gt_of_ne his with h | h
    · have := hmono hn h; omega
    · have := hmono hm h; omega
  rw [sum_pair hne ha hb] at hv
  have h0 : ((0 : Int) : Rat) = 0 := by norm_num
  rw [h0] at hv
  linarith

/-- C123, in part: the candidates stored for two symmetric nets are those of the same number, which are mirror images of each other (C125). -/
theorem C123_sym_partial {cap : Nat → Nat → Option Int} {nets : List Net} {rs : List Row} {x : Nat → Rat} {old : List Nat} (hr : rows cap nets = some rs)
    (hx : Solves rs (total nets) x) (ho : old.length = nets.length) {i s : Nat} {n m : Net} (hn : nets[i]? = some n) (hm : nets[s]? = some m) (his : i ≠ s)
    (hs : n.sym = some s) (hs' : m.sym = some i) (hlen : n.sts.length = m.sts.length) (hne : n.sts ≠ []) :
    (pick nets x old)[i]? = (pick nets x old)[s]? := by
  have hne' : m.sts ≠ [] := by
    intro e
    rw [e] at hlen
    exact hne (List.length_eq_zero_iff.1 hlen)
  obtain ⟨j, j1, j2, j3, j4⟩ := one_spec hr hx ho hn hne
  obtain ⟨k, k1, k2, k3, k4⟩ := one_spec hr hx ho hm hne'
  have hli : i < nets.length := (List.getElem?_eq_some_iff.1 hn).1
  have hls : s < nets.length := (List.getElem?_eq_some_iff.1 hm).1
  have heq : x (before nets s + j + 1) = x (before nets i + j + 1) := by
    by_cases hl : s + 1 < nets.length
    · exact sym_eq hr hx hn hm his hs hl hlen j1
    · exact (sym_eq hr hx hm hn (Ne.symm his) hs' (by omega) hlen.symm (hlen ▸ j1)).symm
  rw [j2, k2, k4 j (hlen ▸ j1) (heq ▸ j3)]

/-! ### Examples -/

def exCap (a b : Nat) : Option Int := if (a = 0 ∧ b = 1) ∨ (a = 1 ∧ b = 0) then some 1 else none
def exNets : List Net := [⟨[[(0, 1)]], some 1⟩, ⟨[[(0, 1)]], some 0⟩]
def exX (c : Nat) : Rat := if c = 1 ∨ c = 2 then 1 else 0

theorem ex_rows : (rows exCap exNets).map (fun rs => rs.map fun r => (r.terms, r.le, r.rhs))
    = some [([(1, 1)], false, 1), ([(2, 1)], false, 1), ([(1, 1), (2, -1)], false, 0), ([(3, -1)], true, 0)] := by decide +kernel

/-- C123 does not hold: the only link between two tiles has room for one net, and both nets are sent over it; the row of the link does not have either
net in it, so that the congestion is taken to be 0. -/
theorem C123_violated : ∃ rs, rows exCap exNets = some rs ∧ Solves rs (total exNets) exX ∧ exX (total exNets + 1) = 0
    ∧ pick exNets exX [0, 0] = [0, 0] ∧ exCap 0 1 = some 1 ∧ usage exNets [0, 0] 0 1 = 2 := by
  have h := ex_rows
  cases hr : rows exCap exNets with
  | none => rw [hr] at h; exact absurd h (by simp)
  | some rs =>
    rw [hr] at h
    have h := Option.some.inj h
    simp only at h
    refine ⟨rs, rfl, ⟨?_, ?_, ?_, ?_⟩, by decide +kernel, by decide +kernel, by decide +kernel, by decide +kernel⟩
    · intro r hr'
      have hm : (r.terms, r.le, r.rhs) ∈ rs.map fun r => (r.terms, r.le, r.rhs) := List.mem_map.2 ⟨r, hr', rfl⟩
      rw [h] at hm
      unfold Row.Holds
      simp only [List.mem_cons, Prod.mk.injEq, List.not_mem_nil, or_false] at hm
      rcases hm with ⟨e1, e2, e3⟩ | ⟨e1, e2, e3⟩ | ⟨e1, e2, e3⟩ | ⟨e1, e2, e3⟩ <;> rw [e1, e2, e3] <;> simp [exX]
    · intro c h1 h2
      unfold exX
      split
      · exact Or.inr rfl
      · exact Or.inl rfl
    · have : exX (total exNets + 1) = 0 := by decide +kernel
      rw [this]
    · have : exX (total exNets + 1) = 0 := by decide +kernel
      rw [this]; norm_num

/-- What the row of a link should be: all candidates that run over the link, against its capacity. Nothing is said of the first user, and the others are
taken for the candidates after them: of three nets over a link of capacity 1 the second is counted as the third, the third as none. -/
example : (links exCap (exNets ++ [⟨[[(1, 0)]], none⟩])).map (fun l => (l, (capRow 3 l).terms)) = [(((0, 1), 1, [2, 3]), [(3, 1), (4, -1)])] := by decide +kernel

/-- The theorems apply to these nets. -/
example : (pick exNets exX [0, 0])[0]? = (pick exNets exX [0, 0])[1]? := by
  obtain ⟨rs, h1, h2, _⟩ := C123_violated
  exact C123_sym_partial (cap := exCap) (n := ⟨[[(0, 1)]], some 1⟩) (m := ⟨[[(0, 1)]], some 0⟩) h1 h2 rfl rfl rfl (by decide) rfl rfl rfl (by simp)

end Verif.Choose

import Mathlib.Data.List.Perm.Subperm
import Mathlib.Data.List.Nodup
import Mathlib.Data.Nat.Factorial.Basic
import Mathlib.Logic.Function.Iterate
import Mathlib.Tactic.Ring
import Mathlib.Tactic.IntervalCases
import Mathlib.Data.List.Permutation
import Verif.Pnr.CheckSeq

/-!
# The enumeration of sequence pairs

Model of `OrderedEnumerator` and `SeqPairEnumerator` (`PlaceRouteHierFlow/placer/SeqPair.cpp` 11-240, `SeqPair.h` 41-86) and of the
loop that uses them (`Placer.cpp` 249-263): instead of annealing, small designs are placed for all sequence pairs and all variants
of the blocks.
-/

namespace Verif.Enum

open Verif.Moves (Axis Before)

/-! ## Orders of the user -/

/-- What an order says about a sequence (51-68). -/
def edge (pos : Bool) (o : (Nat × Nat) × Axis) : Nat × Nat := if o.2 = .V ∧ pos = false then (o.1.2, o.1.1) else o.1

/-- `_indegree`, `visited`, `res` and `_sequences`. -/
structure St where
  indeg : Nat → Int
  vis : Nat → Bool
  res : List Nat
  seqs : List (List Nat)

/-- `_indegree[adjit] += k` for all of a list. -/
def bump (f : Nat → Int) (k : Int) (l : List Nat) : Nat → Int := l.foldl (fun f a => fun x => if x = a then f x + k else f x) f

/-- The loop of `TopoSortUtil` (14-30); `again` is the recursive call. The result is whether the loop was finished, `flag`, and the state. -/
def loop (again : St → Bool × St) (adj : Nat → List Nat) : List Nat → Bool → St → Bool × Bool × St
  | [], flag, st => (true, flag, st)
  | it :: l, flag, st =>
    if st.indeg it = 0 ∧ st.vis it = false then
      let r := again { indeg := bump st.indeg (-1) (adj it), vis := fun x => if x = it then true else st.vis x, res := st.res ++ [it], seqs := st.seqs }
      if r.1 then
        loop again adj l true
          { indeg := bump r.2.indeg 1 (adj it), vis := fun x => if x = it then false else r.2.vis x, res := r.2.res.dropLast, seqs := r.2.seqs }
      else (false, flag, r.2)
    else loop again adj l flag st

/-- `TopoSortUtil` (11-40). The depth of the recursion is given; it is never used up (`util_spec`). -/
def util (adj : Nat → List Nat) (seq : List Nat) (max : Nat) : Nat → St → Bool × St
  | 0, st => (false, st)
  | f + 1, st =>
    if max < st.seqs.length then (false, st)
    else
      let r := loop (util adj seq max f) adj seq false st
      if r.1 then
        let st := if r.2.1 = false ∧ r.2.2.res.length = seq.length then { r.2.2 with seqs := r.2.2.seqs ++ [r.2.2.res] } else r.2.2
        (decide (st.seqs.length ≤ max), st)
      else (false, r.2.2)

/-- The constructor of `OrderedEnumerator` (42-80) for the blocks `0 .. n - 1`; `none` if it is not valid. -/
def orders (n : Nat) (cs : List ((Nat × Nat) × Axis)) (max : Nat) (pos : Bool) : Option (List (List Nat)) :=
  if cs = [] then none
  else
    let E := cs.map (edge pos)
    let r := util (fun a => (E.filter fun e => decide (e.1 = a)).map (·.2)) (List.range n) max (n + 1)
      ⟨fun x => ((E.filter fun e => decide (e.2 = x)).length : Int), fun _ => false, [], []⟩
    if 0 < r.2.seqs.length ∧ r.2.seqs.length ≤ max then some r.2.seqs else none

/-! ## Variants -/

/-- A design: number of blocks, number of variants of a block, groups with the same variant (`Same_Template_Constraints`, sets), orders. -/
structure Des where
  n : Nat
  size : Nat → Nat
  groups : List (List Nat)
  cs : List ((Nat × Nat) × Axis)

/-- Blocks that are in no group. -/
def Des.rest (D : Des) : List Nat := (List.range D.n).filter fun i => !D.groups.any fun g => decide (i ∈ g)

/-- The second numbers of `_selindex` (113-126). -/
def Des.sizes (D : Des) : List Nat := D.groups.map (fun g => D.size (g.headD 0)) ++ D.rest.map D.size

/-- `_selmap`: the counter of a block, that of its last group if it is in groups. -/
def Des.owner (D : Des) (i : Nat) : Nat :=
  match (D.groups.zipIdx.filter fun a => decide (i ∈ a.1)).getLast? with
  | some a => a.2
  | none => D.groups.length + D.rest.idxOf i

/-- `totSel`; no overflow. -/
def prod : List Nat → Nat
  | [] => 1
  | a :: l => a * prod l

/-- The loop of `IncrementSelected` (173-185), from the end of the counters; the flag is `rem`. -/
def incr : List (Nat × Nat) → List (Nat × Nat) × Bool
  | [] => ([], true)
  | c :: l =>
    let r := incr l
    if r.2 then (if c.1 + 1 ≥ c.2 then ((0, c.2) :: r.1, true) else ((c.1 + 1, c.2) :: r.1, false))
    else (c :: r.1, false)

/-- `_selected` (186). -/
def Des.selection (D : Des) (c : List Nat) : List Nat := (List.range D.n).map fun i => c.getD (D.owner i) 0

/-! ## Sequence pairs -/

/-- How the next sequence is found: from the lists of the two enumerators, or by `std::next_permutation`. -/
inductive Mode
  | ordered (p q : List (List Nat))
  | all (next : List Nat → List Nat)

/-- The state of `SeqPairEnumerator`. -/
structure Sp where
  cnt : List (Nat × Nat)
  selected : List Nat
  i : Nat
  j : Nat
  pos : List Nat
  neg : List Nat
  done : Bool

/-- `IncrementSelected` (169-189). -/
def incSelected (D : Des) (maxSize : Int) (s : Sp) : Sp × Bool :=
  if maxSize ≤ 1 ∨ s.cnt.length < 1 then (s, false)
  else
    let r := incr s.cnt
    ({ s with cnt := r.1, selected := D.selection (r.1.map (·.1)) }, !r.2)

/-- `Permute` (216-241). -/
def permute (D : Des) (m : Mode) (maxEnum : Nat) (maxSize : Int) (s : Sp) : Sp :=
  if s.done then s
  else
    let r := incSelected D maxSize s
    let s := r.1
    let s := if r.2 then s
      else if s.j ≥ maxEnum - 1 then
        match m with
        | .ordered p q => { s with j := 0, i := s.i + 1, pos := p.getD ((s.i + 1) % p.length) [], neg := q.getD (0 % q.length) [] }
        | .all next => { s with j := 0, i := s.i + 1, pos := next s.pos, neg := List.range D.n }
      else
        match m with
        | .ordered _ q => { s with j := s.j + 1, neg := q.getD ((s.j + 1) % q.length) [] }
        | .all next => { s with j := s.j + 1, neg := next s.neg }
    { s with done := decide (s.i ≥ maxEnum) }

/-- `ceil(sqrt(maxIter))` for numbers that floating point numbers have exactly. -/
def ceilSqrt (m : Nat) : Nat := ((List.range (m + 1)).find? fun k => decide (m ≤ k * k)).getD 0

/-- The choice made by the constructor of `SeqPairEnumerator` (91-143): `none` if it is not valid, otherwise the mode and `_maxEnum`.
`size_t` does not overflow here; it does for 13 to 16 blocks, where the numbers stay far above `maxIter`. -/
def choose (D : Des) (next : List Nat → List Nat) (maxIter : Nat) : Option (Mode × Nat) :=
  match orders D.n D.cs (ceilSqrt maxIter) true, orders D.n D.cs (ceilSqrt maxIter) false with
  | some p, some q => if maxIter < p.length * prod D.sizes then none else some (.ordered p q, p.length)
  | _, _ =>
    if 0 < maxIter ∧ D.n ≤ 16 ∧ D.n.factorial * D.n.factorial < maxIter then
      (if maxIter < D.n.factorial * D.n.factorial * prod D.sizes then none else some (.all next, D.n.factorial))
    else none

/-- The start (91-98, 144-157). -/
def start (D : Des) (m : Mode) : Sp :=
  { cnt := D.sizes.map fun s => (0, s), selected := List.replicate D.n 0, i := 0, j := 0,
    pos := match m with | .ordered p _ => p.getD (0 % p.length) [] | .all _ => List.range D.n,
    neg := match m with | .ordered _ q => q.getD (0 % q.length) [] | .all _ => List.range D.n, done := false }

/-- The loop of the placer (`Placer.cpp` 251-263) for at most `k` rounds: what is placed, and the state at the end. -/
def run (step : Sp → Sp) : Nat → Sp → List (List Nat × List Nat × List Nat) × Sp
  | 0, s => ([], s)
  | k + 1, s => if s.done then ([], s) else
    let r := run step k (step s)
    ((s.pos, s.neg, s.selected) :: r.1, r.2)

/-- `_maxSize` (103-108). It is not initialised, so it starts with any number `m0`. -/
def maxSize (D : Des) (m0 : Int) : Int := (List.range D.n).foldl (fun m i => max m (D.size i)) m0

/-! ## Specification -/

/-- `l` has the blocks `0 .. n - 1` and every first block of `E` before the second. -/
def Ext (n : Nat) (E : List (Nat × Nat)) (l : List Nat) : Prop := l.Perm (List.range n) ∧ ∀ e ∈ E, Before l e.1 e.2

/-- A sequence pair has the orders: left blocks first in both sequences, upper blocks first in one and last in the other. -/
def Has (D : Des) (p q : List Nat) : Prop := ∀ o ∈ D.cs,
  (o.2 = .H → Before p o.1.1 o.1.2 ∧ Before q o.1.1 o.1.2) ∧ (o.2 = .V → Before p o.1.1 o.1.2 ∧ Before q o.1.2 o.1.1)

/-- A choice of variants, the same in every group. -/
def Choice (D : Des) (s : List Nat) : Prop := s.length = D.n ∧ (∀ i, i < D.n → s.getD i 0 < D.size i) ∧
  ∀ g ∈ D.groups, ∀ a ∈ g, ∀ b ∈ g, s.getD a 0 = s.getD b 0

/-- Blocks have variants, as many as the others of their group; groups are disjoint and not empty; orders are about blocks. -/
structure Ok (D : Des) : Prop where
  pos : ∀ i, i < D.n → 0 < D.size i
  ne : ∀ g ∈ D.groups, g ≠ []
  mem : ∀ g ∈ D.groups, ∀ a ∈ g, a < D.n
  same : ∀ g ∈ D.groups, ∀ a ∈ g, ∀ b ∈ g, D.size a = D.size b
  disj : ∀ (k l : Nat) (g h : List Nat), D.groups[k]? = some g → D.groups[l]? = some h → ∀ a, a ∈ g → a ∈ h → k = l
  cs : ∀ o ∈ D.cs, o.1.1 < D.n ∧ o.1.2 < D.n

/-- `std::next_permutation`: from the sorted sequence it goes through all permutations and back. -/
structure Next (n : Nat) (next : List Nat → List Nat) : Prop where
  nodup : ((List.range n.factorial).map fun k => next^[k] (List.range n)).Nodup
  mem : ∀ l : List Nat, l.Perm (List.range n) → ∃ k, k < n.factorial ∧ next^[k] (List.range n) = l
  perm : ∀ k, (next^[k] (List.range n)).Perm (List.range n)

/-! ## The sequences of an enumerator -/

section topo

variable (E : List (Nat × Nat)) (n : Nat)

def adjOf (a : Nat) : List Nat := (E.filter fun e => decide (e.1 = a)).map (·.2)

/-- The number of predecessors that are missing. -/
def deg (res : List Nat) (x : Nat) : Int := ((E.filter fun e => decide (e.2 = x) && !decide (e.1 ∈ res)).length : Int)

/-- The state is given by the part of the sequence that is chosen. -/
def stOf (res : List Nat) (seqs : List (List Nat)) : St := ⟨deg E res, fun x => decide (x ∈ res), res, seqs⟩

def ready (res : List Nat) (x : Nat) : Bool := decide (deg E res x = 0) && !decide (x ∈ res)

/-- The sequences that begin with a part. -/
def exts : Nat → List Nat → List (List Nat)
  | 0, _ => []
  | f + 1, res =>
    let c := (List.range n).filter (ready E res)
    if c.isEmpty then (if res.length = n then [res] else []) else c.flatMap fun x => exts f (res ++ [x])

theorem bump_apply (k : Int) : ∀ (l : List Nat) (f : Nat → Int) (x : Nat), bump f k l x = f x + k * (l.count x : Int)
  | [], f, x => by simp [bump]
  | a :: l, f, x => by
    have h := bump_apply k l (fun x => if x = a then f x + k else f x) x
    have e : bump f k (a :: l) x = bump (fun x => if x = a then f x + k else f x) k l x := rfl
    rw [e, h, List.count_cons]
    by_cases c : x = a
    · subst c
      simp
      ring
    · rw [if_neg c]
      have : (a == x) = false := by simp; exact fun h => c h.symm
      simp [this]

theorem deg_step {res : List Nat} {it : Nat} (h : it ∉ res) (x : Nat) :
    deg E (res ++ [it]) x + ((adjOf E it).count x : Int) = deg E res x := by
  unfold deg adjOf
  induction E with
  | nil => simp
  | cons e E ih =>
    obtain ⟨a, b⟩ := e
    simp only [List.filter_cons]
    by_cases c1 : a = it
    · subst c1
      have hm : a ∈ res ++ [a] := by simp
      by_cases c2 : b = x
      · subst c2
        simp [h] at ih ⊢
        omega
      · have c2' : ¬ (b == x) = true := by simpa using c2
        simp [h, c2] at ih ⊢
        omega
    · by_cases c2 : b = x
      · subst c2
        by_cases c3 : a ∈ res
        · simp [c1, c3] at ih ⊢
          omega
        · simp [c1, c3] at ih ⊢
          omega
      · simp [c1, c2] at ih ⊢
        omega

theorem bump_down {res : List Nat} {it : Nat} (h : it ∉ res) : bump (deg E res) (-1) (adjOf E it) = deg E (res ++ [it]) := by
  funext x
  have := deg_step E h x
  rw [bump_apply]
  omega

theorem bump_up {res : List Nat} {it : Nat} (h : it ∉ res) : bump (deg E (res ++ [it])) 1 (adjOf E it) = deg E res := by
  funext x
  have := deg_step E h x
  rw [bump_apply]
  omega

theorem util_spec (max : Nat) : ∀ (f : Nat) (res : List Nat) (seqs : List (List Nat)), res.Nodup → (∀ x ∈ res, x < n) → n < f + res.length →
    (util (adjOf E) (List.range n) max f (stOf E res seqs) = (true, stOf E res (seqs ++ exts E n f res)) ∧
      (seqs ++ exts E n f res).length ≤ max) ∨
    ∃ st, util (adjOf E) (List.range n) max f (stOf E res seqs) = (false, st) ∧ max < st.seqs.length ∧ st.seqs <+: seqs ++ exts E n f res := by
  intro f
  induction f with
  | zero =>
    intro res seqs hnd hlt hf
    exfalso
    have : res.length ≤ (List.range n).length := (hnd.subperm fun x hx => List.mem_range.2 (hlt x hx)).length_le
    rw [List.length_range] at this
    omega
  | succ f ih =>
    intro res seqs hnd hlt hf
    have hloop : ∀ (l : List Nat) (flag : Bool) (seqs : List (List Nat)), (∀ x ∈ l, x < n) →
        (loop (util (adjOf E) (List.range n) max f) (adjOf E) l flag (stOf E res seqs) =
          (true, flag || !(l.filter (ready E res)).isEmpty, stOf E res (seqs ++ (l.filter (ready E res)).flatMap fun x => exts E n f (res ++ [x])))) ∨
        ∃ b st, loop (util (adjOf E) (List.range n) max f) (adjOf E) l flag (stOf E res seqs) = (false, b, st) ∧ max < st.seqs.length ∧
          st.seqs <+: seqs ++ (l.filter (ready E res)).flatMap fun x => exts E n f (res ++ [x]) := by
      intro l
      induction l with
      | nil => intro flag seqs _; left; simp [loop]
      | cons it l ihl =>
        intro flag seqs hl
        unfold loop
        by_cases hr : ready E res it = true
        · have hr' := hr
          unfold ready at hr'
          simp only [Bool.and_eq_true, decide_eq_true_eq, Bool.not_eq_true', decide_eq_false_iff_not] at hr'
          have hc : (stOf E res seqs).indeg it = 0 ∧ (stOf E res seqs).vis it = false := ⟨hr'.1, decide_eq_false hr'.2⟩
          rw [if_pos hc]
          have e1 : ({ indeg := bump (stOf E res seqs).indeg (-1) (adjOf E it), vis := fun x => if x = it then true else (stOf E res seqs).vis x, res := (stOf E res seqs).res ++ [it], seqs := (stOf E res seqs).seqs } : St) =
              stOf E (res ++ [it]) seqs := by
            unfold stOf
            simp only [bump_down E hr'.2, St.mk.injEq, true_and, and_true]
            funext x
            by_cases c : x = it <;> simp [c]
          rw [e1]
          have hn' : (res ++ [it]).Nodup := by
            rw [List.nodup_append]
            exact ⟨hnd, by simp, fun a ha b hb => by rw [List.mem_singleton.1 hb]; exact fun e => hr'.2 (e ▸ ha)⟩
          have hlt' : ∀ x ∈ res ++ [it], x < n := fun x hx => by
            rcases List.mem_append.1 hx with h | h
            · exact hlt x h
            · rw [List.mem_singleton.1 h]; exact hl it List.mem_cons_self
          rcases ih (res ++ [it]) seqs hn' hlt' (by simp; omega) with ⟨h1, -⟩ | ⟨st, h1, h2, h3⟩
          · rw [h1]
            simp only [if_true]
            have e2 : ({ indeg := bump (stOf E (res ++ [it]) (seqs ++ exts E n f (res ++ [it]))).indeg 1 (adjOf E it), vis := fun x => if x = it then false else (stOf E (res ++ [it]) (seqs ++ exts E n f (res ++ [it]))).vis x, res := (stOf E (res ++ [it]) (seqs ++ exts E n f (res ++ [it]))).res.dropLast, seqs := (stOf E (res ++ [it]) (seqs ++ exts E n f (res ++ [it]))).seqs } : St) =
                stOf E res (seqs ++ exts E n f (res ++ [it])) := by
              unfold stOf
              simp only [bump_up E hr'.2, List.dropLast_concat, St.mk.injEq, true_and, and_true]
              funext x
              by_cases c : x = it
              · subst c; simp [hr'.2]
              · simp [c]
            rw [e2, List.filter_cons, if_pos hr]
            rcases ihl true (seqs ++ exts E n f (res ++ [it])) (fun x hx => hl x (List.mem_cons_of_mem _ hx)) with h | ⟨b, st, h, h2, h3⟩
            · left
              rw [h]
              simp
            · right
              exact ⟨b, st, h, h2, by simpa [List.append_assoc] using h3⟩
          · rw [h1]
            right
            refine ⟨flag, st, by simp, h2, ?_⟩
            rw [List.filter_cons, if_pos hr, List.flatMap_cons, ← List.append_assoc]
            exact h3.trans (List.prefix_append _ _)
        · have hc : ¬ ((stOf E res seqs).indeg it = 0 ∧ (stOf E res seqs).vis it = false) := by
            rintro ⟨h1, h2⟩
            apply hr
            unfold ready
            simp only [Bool.and_eq_true, decide_eq_true_eq, Bool.not_eq_true', decide_eq_false_iff_not]
            exact ⟨h1, of_decide_eq_false h2⟩
          rw [if_neg hc, List.filter_cons, if_neg hr]
          exact ihl flag seqs fun x hx => hl x (List.mem_cons_of_mem _ hx)
    unfold util
    by_cases hm : max < (stOf E res seqs).seqs.length
    · rw [if_pos hm]
      exact Or.inr ⟨_, rfl, hm, List.prefix_append _ _⟩
    · rw [if_neg hm]
      rcases hloop (List.range n) false seqs (fun x hx => List.mem_range.1 hx) with h | ⟨b, st, h, h2, h3⟩
      · rw [h]
        simp only [if_true, Bool.false_or]
        have key : (if (!((List.range n).filter (ready E res)).isEmpty) = false ∧ (stOf E res (seqs ++ ((List.range n).filter (ready E res)).flatMap fun x => exts E n f (res ++ [x]))).res.length = (List.range n).length
            then { (stOf E res (seqs ++ ((List.range n).filter (ready E res)).flatMap fun x => exts E n f (res ++ [x]))) with seqs := (stOf E res (seqs ++ ((List.range n).filter (ready E res)).flatMap fun x => exts E n f (res ++ [x]))).seqs ++ [(stOf E res (seqs ++ ((List.range n).filter (ready E res)).flatMap fun x => exts E n f (res ++ [x]))).res] }
            else stOf E res (seqs ++ ((List.range n).filter (ready E res)).flatMap fun x => exts E n f (res ++ [x]))) = stOf E res (seqs ++ exts E n (f + 1) res) := by
          rw [exts]
          by_cases c : ((List.range n).filter (ready E res)).isEmpty = true
          · have c' : (List.range n).filter (ready E res) = [] := List.isEmpty_iff.1 c
            rw [c']
            simp only [List.isEmpty_nil, Bool.not_true, true_and, List.flatMap_nil, List.append_nil, if_true, List.length_range]
            by_cases d : res.length = n
            · rw [if_pos d, if_pos (show (stOf E res seqs).res.length = n from d)]; rfl
            · rw [if_neg d, if_neg (show ¬ (stOf E res seqs).res.length = n from d)]; simp
          · rw [if_neg (by simp [c]), if_neg c]
        rw [key]
        by_cases d : (seqs ++ exts E n (f + 1) res).length ≤ max
        · left
          exact ⟨by rw [show (stOf E res (seqs ++ exts E n (f + 1) res)).seqs = seqs ++ exts E n (f + 1) res from rfl, decide_eq_true d], d⟩
        · right
          refine ⟨_, by rw [show (stOf E res (seqs ++ exts E n (f + 1) res)).seqs = seqs ++ exts E n (f + 1) res from rfl, decide_eq_false d], ?_, List.prefix_refl _⟩
          show max < (seqs ++ exts E n (f + 1) res).length
          omega
      · rw [h]
        right
        refine ⟨st, by simp, h2, ?_⟩
        rw [exts]
        by_cases c : ((List.range n).filter (ready E res)).isEmpty = true
        · have c' : (List.range n).filter (ready E res) = [] := List.isEmpty_iff.1 c
          rw [c'] at h3
          simp only [List.flatMap_nil, List.append_nil] at h3
          exact h3.trans (List.prefix_append _ _)
        · simp only [c]
          exact h3

variable {E n}

theorem ready_iff {res : List Nat} {x : Nat} : ready E res x = true ↔ x ∉ res ∧ ∀ e ∈ E, e.2 = x → e.1 ∈ res := by
  unfold ready deg
  rw [Bool.and_eq_true, decide_eq_true_eq, Bool.not_eq_true', decide_eq_false_iff_not, and_comm]
  refine and_congr_right fun _ => ?_
  rw [Int.natCast_eq_zero, List.length_eq_zero_iff, List.filter_eq_nil_iff]
  refine forall_congr' fun e => forall_congr' fun _ => ?_
  simp

theorem before_append {l t : List Nat} {a b : Nat} (h : Before l a b) : Before (l ++ t) a b := by
  obtain ⟨i, j, hij, h1, h2⟩ := h
  have hj : j < l.length := (List.getElem?_eq_some_iff.1 h2).1
  exact ⟨i, j, hij, by rw [List.getElem?_append_left (by omega)]; exact h1, by rw [List.getElem?_append_left hj]; exact h2⟩

theorem before_snoc {l : List Nat} {a b : Nat} (h : a ∈ l) : Before (l ++ [b]) a b := by
  obtain ⟨i, hi⟩ := List.getElem?_of_mem h
  have hl : i < l.length := (List.getElem?_eq_some_iff.1 hi).1
  exact ⟨i, l.length, hl, by rw [List.getElem?_append_left hl]; exact hi, by simp⟩

/-- What is chosen has its predecessors. -/
structure Good (E : List (Nat × Nat)) (n : Nat) (res : List Nat) : Prop where
  nodup : res.Nodup
  lt : ∀ x ∈ res, x < n
  closed : ∀ e ∈ E, e.2 ∈ res → Before res e.1 e.2

theorem Good.snoc {res : List Nat} {x : Nat} (hg : Good E n res) (hx : x < n) (hr : ready E res x = true) : Good E n (res ++ [x]) := by
  obtain ⟨h1, h2⟩ := ready_iff.1 hr
  refine ⟨?_, fun y hy => ?_, fun e he hm => ?_⟩
  · rw [List.nodup_append]
    exact ⟨hg.nodup, by simp, fun a ha b hb => by rw [List.mem_singleton.1 hb]; exact fun e => h1 (e ▸ ha)⟩
  · rcases List.mem_append.1 hy with h | h
    · exact hg.lt y h
    · rw [List.mem_singleton.1 h]; exact hx
  · rcases List.mem_append.1 hm with h | h
    · exact before_append (hg.closed e he h)
    · have e2 := List.mem_singleton.1 h
      rw [e2]
      exact before_snoc (h2 e he e2)

theorem exts_mem (hE : ∀ e ∈ E, e.1 < n ∧ e.2 < n) : ∀ (f : Nat) (res : List Nat), Good E n res → n < f + res.length → ∀ l,
    l ∈ exts E n f res ↔ Ext n E l ∧ res <+: l := by
  intro f
  induction f with
  | zero =>
    intro res hg hf
    exfalso
    have : res.length ≤ (List.range n).length := (hg.nodup.subperm fun x hx => List.mem_range.2 (hg.lt x hx)).length_le
    rw [List.length_range] at this
    omega
  | succ f ih =>
    intro res hg hf l
    have step : ∀ x, x < n → ready E res x = true → (l ∈ exts E n f (res ++ [x]) ↔ Ext n E l ∧ res ++ [x] <+: l) := fun x hx hr =>
      ih _ (hg.snoc hx hr) (by simp; omega) l
    have hmem : ∀ x, x ∈ (List.range n).filter (ready E res) ↔ x < n ∧ ready E res x = true := fun x => by
      rw [List.mem_filter, List.mem_range]
    have back : Ext n E l ∧ res <+: l → (res = l ∧ res.length = n) ∨ ∃ x, x < n ∧ ready E res x = true ∧ res ++ [x] <+: l := by
      rintro ⟨⟨hp, hb⟩, t, rfl⟩
      cases t with
      | nil =>
        left
        rw [List.append_nil] at hp
        exact ⟨by simp, by rw [hp.length_eq, List.length_range]⟩
      | cons x t =>
        right
        have hn : (res ++ x :: t).Nodup := hp.nodup_iff.2 List.nodup_range
        refine ⟨x, List.mem_range.1 (hp.mem_iff.1 (by simp)), ready_iff.2 ⟨?_, fun e he hx => ?_⟩, t, by simp⟩
        · intro hm
          rw [List.nodup_append] at hn
          exact hn.2.2 x hm x (by simp) rfl
        · obtain ⟨i, j, hij, h1, h2⟩ := hb e he
          rw [hx] at h2
          have hj : j = res.length := by
            have hlt := (List.getElem?_eq_some_iff.1 h2).1
            have hlt2 : res.length < (res ++ x :: t).length := by simp
            have e1 := (List.getElem?_eq_some_iff.1 h2).2
            exact (hn.getElem_inj_iff (hi := hlt) (hj := hlt2)).1 (by rw [e1]; simp)
          rw [List.getElem?_append_left (by omega)] at h1
          exact List.mem_of_getElem? h1
    rw [exts]
    by_cases c : ((List.range n).filter (ready E res)).isEmpty = true
    · have c' : (List.range n).filter (ready E res) = [] := List.isEmpty_iff.1 c
      simp only [c, if_true]
      have none : ∀ x, ¬ (x < n ∧ ready E res x = true) := fun x h => by
        have := (hmem x).2 h
        rw [c'] at this
        cases this
      constructor
      · intro hl
        by_cases d : res.length = n
        · rw [if_pos d, List.mem_singleton] at hl
          subst hl
          have hp : l.Perm (List.range n) :=
            (hg.nodup.subperm fun x hx => List.mem_range.2 (hg.lt x hx)).perm_of_length_le (by rw [List.length_range]; omega)
          exact ⟨⟨hp, fun e he => hg.closed e he (hp.mem_iff.2 (List.mem_range.2 (hE e he).2))⟩, List.prefix_refl _⟩
        · rw [if_neg d] at hl; cases hl
      · intro h
        rcases back h with ⟨h1, h2⟩ | ⟨x, h1, h2, -⟩
        · rw [if_pos h2, h1]; exact List.mem_singleton.2 rfl
        · exact absurd ⟨h1, h2⟩ (none x)
    · rw [if_neg c, List.mem_flatMap]
      constructor
      · rintro ⟨x, hx, hl⟩
        obtain ⟨h1, h2⟩ := (hmem x).1 hx
        obtain ⟨h3, h4⟩ := (step x h1 h2).1 hl
        exact ⟨h3, (List.prefix_append _ _).trans h4⟩
      · intro h
        rcases back h with ⟨h1, h2⟩ | ⟨x, h1, h2, h3⟩
        · exfalso
          apply c
          rw [List.isEmpty_iff, List.filter_eq_nil_iff]
          intro x hx hr
          refine (ready_iff.1 hr).1 ?_
          rw [h1]
          exact h.1.1.mem_iff.2 hx
        · exact ⟨x, (hmem x).2 ⟨h1, h2⟩, (step x h1 h2).2 ⟨h.1, h3⟩⟩

theorem exts_nodup (hE : ∀ e ∈ E, e.1 < n ∧ e.2 < n) : ∀ (f : Nat) (res : List Nat), Good E n res → n < f + res.length →
    (exts E n f res).Nodup := by
  intro f
  induction f with
  | zero => intro res _ _; exact List.nodup_nil
  | succ f ih =>
    intro res hg hf
    rw [exts]
    split
    · split
      · exact List.nodup_singleton _
      · exact List.nodup_nil
    · rw [List.nodup_flatMap]
      have hmem : ∀ x, x ∈ (List.range n).filter (ready E res) → x < n ∧ ready E res x = true := fun x hx => by
        rw [List.mem_filter, List.mem_range] at hx; exact hx
      refine ⟨fun x hx => ih _ (hg.snoc (hmem x hx).1 (hmem x hx).2) (by simp; omega), ?_⟩
      have hnd : ((List.range n).filter (ready E res)).Nodup := List.nodup_range.filter _
      refine (List.Nodup.pairwise_of_forall_ne hnd) fun x hx y hy hne => ?_
      intro l h1 h2
      have p1 := ((exts_mem hE f _ (hg.snoc (hmem x hx).1 (hmem x hx).2) (by simp; omega) l).1 h1).2
      have p2 := ((exts_mem hE f _ (hg.snoc (hmem y hy).1 (hmem y hy).2) (by simp; omega) l).1 h2).2
      have := List.prefix_of_prefix_length_le p1 p2 (by simp)
      obtain ⟨t, ht⟩ := this
      have h := congrArg (fun l => l[res.length]?) ht
      simp at h
      exact hne h

theorem good_nil : Good E n [] := ⟨List.nodup_nil, fun _ h => (by cases h), fun _ _ h => (by cases h)⟩

end topo

/-- The sequences of an enumerator are those that have the orders. -/
theorem orders_spec {n max : Nat} {cs : List ((Nat × Nat) × Axis)} {pos : Bool} (hcs : ∀ o ∈ cs, o.1.1 < n ∧ o.1.2 < n) {p : List (List Nat)}
    (h : orders n cs max pos = some p) : p.Nodup ∧ (∀ l, l ∈ p ↔ Ext n (cs.map (edge pos)) l) ∧ 0 < p.length ∧ p.length ≤ max := by
  have hE : ∀ e ∈ cs.map (edge pos), e.1 < n ∧ e.2 < n := by
    intro e he
    obtain ⟨o, ho, rfl⟩ := List.mem_map.1 he
    unfold edge
    split
    · exact ⟨(hcs o ho).2, (hcs o ho).1⟩
    · exact hcs o ho
  unfold orders at h
  by_cases c : cs = []
  · rw [if_pos c] at h; cases h
  rw [if_neg c] at h
  simp only at h
  have e0 : (⟨fun x => (((cs.map (edge pos)).filter fun e => decide (e.2 = x)).length : Int), fun _ => false, [], []⟩ : St) = stOf (cs.map (edge pos)) [] [] := by
    unfold stOf deg
    simp
  rw [e0] at h
  have e1 : (fun a => ((cs.map (edge pos)).filter fun e => decide (e.1 = a)).map (·.2)) = adjOf (cs.map (edge pos)) := rfl
  rw [e1] at h
  rcases util_spec (cs.map (edge pos)) n max (n + 1) [] [] List.nodup_nil (fun _ h => (by cases h)) (by simp) with ⟨h1, -⟩ | ⟨st, h1, h2, -⟩
  · rw [h1] at h
    by_cases d : 0 < (stOf (cs.map (edge pos)) [] ([] ++ exts (cs.map (edge pos)) n (n + 1) [])).seqs.length ∧
        (stOf (cs.map (edge pos)) [] ([] ++ exts (cs.map (edge pos)) n (n + 1) [])).seqs.length ≤ max
    · rw [if_pos d] at h
      have h := Option.some.inj h
      have e : (stOf (cs.map (edge pos)) [] ([] ++ exts (cs.map (edge pos)) n (n + 1) [])).seqs = exts (cs.map (edge pos)) n (n + 1) [] := rfl
      rw [e] at h d
      subst h
      refine ⟨exts_nodup hE _ _ good_nil (by simp), fun l => ?_, d.1, d.2⟩
      rw [exts_mem hE _ _ good_nil (by simp)]
      exact ⟨fun h => h.1, fun h => ⟨h, List.nil_prefix⟩⟩
    · rw [if_neg d] at h; cases h
  · rw [h1] at h
    have hd : ¬ (0 < st.seqs.length ∧ st.seqs.length ≤ max) := by omega
    rw [if_neg hd] at h; cases h

/-- An enumerator is not valid only without orders, without a sequence that has them, or with too many. -/
theorem orders_none {n max : Nat} {cs : List ((Nat × Nat) × Axis)} {pos : Bool} (hcs : ∀ o ∈ cs, o.1.1 < n ∧ o.1.2 < n)
    (h : orders n cs max pos = none) : cs = [] ∨ (∀ l, ¬ Ext n (cs.map (edge pos)) l) ∨
      ∃ p : List (List Nat), p.Nodup ∧ (∀ l ∈ p, Ext n (cs.map (edge pos)) l) ∧ max < p.length := by
  have hE : ∀ e ∈ cs.map (edge pos), e.1 < n ∧ e.2 < n := by
    intro e he
    obtain ⟨o, ho, rfl⟩ := List.mem_map.1 he
    unfold edge
    split
    · exact ⟨(hcs o ho).2, (hcs o ho).1⟩
    · exact hcs o ho
  unfold orders at h
  by_cases c : cs = []
  · exact Or.inl c
  rw [if_neg c] at h
  simp only at h
  have e0 : (⟨fun x => (((cs.map (edge pos)).filter fun e => decide (e.2 = x)).length : Int), fun _ => false, [], []⟩ : St) = stOf (cs.map (edge pos)) [] [] := by
    unfold stOf deg
    simp
  rw [e0] at h
  have e1 : (fun a => ((cs.map (edge pos)).filter fun e => decide (e.1 = a)).map (·.2)) = adjOf (cs.map (edge pos)) := rfl
  rw [e1] at h
  right
  rcases util_spec (cs.map (edge pos)) n max (n + 1) [] [] List.nodup_nil (fun _ h => (by cases h)) (by simp) with ⟨h1, h2⟩ | ⟨st, h1, h2, h3⟩
  · left
    intro l hl
    have hm := (exts_mem hE (n + 1) _ good_nil (by simp) l).2 ⟨hl, List.nil_prefix⟩
    rw [h1, if_pos] at h
    · cases h
    · exact ⟨List.length_pos_of_mem hm, h2⟩
  · right
    refine ⟨st.seqs, ?_, fun l hl => ?_, h2⟩
    · exact (List.nil_append (exts _ _ _ _) ▸ h3 :).sublist.nodup (exts_nodup hE _ _ good_nil (by simp))
    · have := h3.subset hl
      rw [List.nil_append] at this
      exact ((exts_mem hE _ _ good_nil (by simp) l).1 this).1

/-! ## The counters -/

/-- The counters after `k` steps. -/
def cnts : List Nat → Nat → List (Nat × Nat)
  | [], _ => []
  | a :: l, k => (k / prod l, a) :: cnts l (k % prod l)

/-- The first numbers of the counters after `k` steps. -/
def dig : List Nat → Nat → List Nat
  | [], _ => []
  | _ :: l, k => k / prod l :: dig l (k % prod l)

theorem cnts_fst : ∀ (l : List Nat) (k : Nat), (cnts l k).map (·.1) = dig l k
  | [], _ => rfl
  | _ :: l, k => by rw [cnts, dig, List.map_cons, cnts_fst l]

theorem cnts_length : ∀ (l : List Nat) (k : Nat), (cnts l k).length = l.length
  | [], _ => rfl
  | _ :: l, k => by rw [cnts, List.length_cons, cnts_length l, List.length_cons]

theorem dig_length : ∀ (l : List Nat) (k : Nat), (dig l k).length = l.length
  | [], _ => rfl
  | _ :: l, k => by rw [dig, List.length_cons, dig_length l, List.length_cons]

theorem prod_pos : ∀ {l : List Nat}, (∀ a ∈ l, 0 < a) → 0 < prod l
  | [], _ => by decide
  | a :: l, h => Nat.mul_pos (h a (by simp)) (prod_pos fun b hb => h b (by simp [hb]))

theorem cnts_zero : ∀ l : List Nat, cnts l 0 = l.map fun s => (0, s)
  | [] => rfl
  | a :: l => by rw [cnts, Nat.zero_div, Nat.zero_mod, cnts_zero l, List.map_cons]

theorem dig_zero : ∀ (l : List Nat) (i : Nat), (dig l 0).getD i 0 = 0
  | [], i => by simp [dig]
  | a :: l, 0 => by simp [dig]
  | a :: l, i + 1 => by
    have := dig_zero l i
    simpa [dig] using this

theorem incr_cnts : ∀ (l : List Nat) (k : Nat), (∀ a ∈ l, 0 < a) → k < prod l →
    incr (cnts l k) = if k + 1 < prod l then (cnts l (k + 1), false) else (cnts l 0, true)
  | [], k, _, h => by
    have : k = 0 := by simp [prod] at h; exact h
    subst this
    simp [cnts, incr, prod]
  | a :: l, k, hl, h => by
    have hP : 0 < prod l := prod_pos fun b hb => hl b (by simp [hb])
    have hr : k % prod l < prod l := Nat.mod_lt _ hP
    have hk := Nat.div_add_mod k (prod l)
    have hd : k / prod l < a := (Nat.div_lt_iff_lt_mul hP).2 h
    have e : prod (a :: l) = a * prod l := rfl
    rw [cnts, incr, incr_cnts l _ (fun b hb => hl b (by simp [hb])) hr]
    by_cases c : k % prod l + 1 < prod l
    · have h1 : (k + 1) / prod l = k / prod l := by
        conv_lhs => rw [← hk]
        rw [Nat.add_assoc, Nat.mul_add_div hP, Nat.div_eq_of_lt c, Nat.add_zero]
      have h2 : (k + 1) % prod l = k % prod l + 1 := by
        conv_lhs => rw [← hk]
        rw [Nat.add_assoc, Nat.mul_add_mod, Nat.mod_eq_of_lt c]
      have h3 : k + 1 < prod (a :: l) := by
        rw [e]
        refine (Nat.div_lt_iff_lt_mul hP).1 ?_
        rw [h1]; exact hd
      rw [if_pos c, if_pos h3, cnts, h1, h2]
      rfl
    · have h4 : k % prod l + 1 = prod l := by omega
      have h5 : k + 1 = prod l * (k / prod l + 1) := by rw [Nat.mul_add, Nat.mul_one]; omega
      have h1 : (k + 1) / prod l = k / prod l + 1 := by rw [h5, Nat.mul_div_cancel_left _ hP]
      have h2 : (k + 1) % prod l = 0 := by rw [h5, Nat.mul_mod_right]
      rw [if_neg c]
      by_cases d : k / prod l + 1 ≥ a
      · have h3 : ¬ k + 1 < prod (a :: l) := by
          rw [e, h5, Nat.mul_comm a]
          have := Nat.mul_le_mul_left (prod l) d
          omega
        rw [if_neg h3, cnts, Nat.zero_div, Nat.zero_mod]
        simp only [if_true, d]
      · have h3 : k + 1 < prod (a :: l) := by
          rw [e]
          refine (Nat.div_lt_iff_lt_mul hP).1 ?_
          rw [h1]; omega
        rw [if_pos h3, cnts, h1, h2]
        simp only [if_true, d, if_false]

theorem dig_lt : ∀ (l : List Nat) (k : Nat), k < prod l → (∀ a ∈ l, 0 < a) → ∀ i, i < l.length → (dig l k).getD i 0 < l.getD i 0
  | [], _, _, _, i, hi => by simp at hi
  | a :: l, k, h, hl, i, hi => by
    have hP : 0 < prod l := prod_pos fun b hb => hl b (by simp [hb])
    cases i with
    | zero =>
      have : k / prod l < a := (Nat.div_lt_iff_lt_mul hP).2 h
      simpa [dig] using this
    | succ i =>
      have := dig_lt l (k % prod l) (Nat.mod_lt _ hP) (fun b hb => hl b (by simp [hb])) i (by simpa using hi)
      simpa [dig] using this

theorem dig_inj : ∀ (l : List Nat) (j k : Nat), (∀ a ∈ l, 0 < a) → j < prod l → k < prod l → dig l j = dig l k → j = k
  | [], j, k, _, hj, hk, _ => by simp [prod] at hj hk; omega
  | a :: l, j, k, hl, hj, hk, h => by
    have hl' : ∀ b ∈ l, 0 < b := fun b hb => hl b (by simp [hb])
    have hP : 0 < prod l := prod_pos hl'
    rw [dig, dig, List.cons.injEq] at h
    have := dig_inj l _ _ hl' (Nat.mod_lt _ hP) (Nat.mod_lt _ hP) h.2
    rw [← Nat.div_add_mod j (prod l), ← Nat.div_add_mod k (prod l), h.1, this]

theorem dig_surj : ∀ (l v : List Nat), (∀ a ∈ l, 0 < a) → v.length = l.length → (∀ i, i < l.length → v.getD i 0 < l.getD i 0) →
    ∃ k, k < prod l ∧ dig l k = v
  | [], v, _, hv, _ => ⟨0, by decide, by rw [List.length_eq_zero_iff.1 hv]; rfl⟩
  | a :: l, [], _, hv, _ => by simp at hv
  | a :: l, x :: v, hl, hv, h => by
    have hl' : ∀ b ∈ l, 0 < b := fun b hb => hl b (by simp [hb])
    have hP : 0 < prod l := prod_pos hl'
    obtain ⟨k, hk, e⟩ := dig_surj l v hl' (by simpa using hv) fun i hi => by
      have := h (i + 1) (by simpa using hi)
      simpa using this
    have hx : x < a := by
      have := h 0 (by simp)
      simpa using this
    have h1 : (prod l * x + k) / prod l = x := by rw [Nat.mul_add_div hP, Nat.div_eq_of_lt hk, Nat.add_zero]
    refine ⟨prod l * x + k, ?_, ?_⟩
    · show _ < a * prod l
      refine (Nat.div_lt_iff_lt_mul hP).1 ?_
      rw [h1]; exact hx
    · rw [dig, h1, Nat.mul_add_mod, Nat.mod_eq_of_lt hk, e]

/-! ## The variants that are chosen -/

section sel

variable {D : Des}

theorem mem_rest {i : Nat} : i ∈ D.rest ↔ i < D.n ∧ ∀ g ∈ D.groups, i ∉ g := by
  unfold Des.rest
  rw [List.mem_filter, List.mem_range]
  simp

theorem owner_group (h : Ok D) {m i : Nat} {g : List Nat} (hg : D.groups[m]? = some g) (hi : i ∈ g) : D.owner i = m := by
  unfold Des.owner
  have hmem : (g, m) ∈ D.groups.zipIdx.filter fun a => decide (i ∈ a.1) := by
    rw [List.mem_filter]
    exact ⟨by rw [List.mem_zipIdx_iff_getElem?]; exact hg, by simpa using hi⟩
  cases e : (D.groups.zipIdx.filter fun a => decide (i ∈ a.1)).getLast? with
  | none => rw [List.getLast?_eq_none_iff] at e; rw [e] at hmem; cases hmem
  | some a =>
    have ha := List.mem_of_getLast? e
    rw [List.mem_filter] at ha
    have h1 := (List.mem_zipIdx_iff_getElem?).1 ha.1
    exact h.disj _ _ _ _ h1 hg i (by simpa using ha.2) hi

theorem owner_rest {i : Nat} (hi : i ∈ D.rest) : D.owner i = D.groups.length + D.rest.idxOf i := by
  unfold Des.owner
  have e : (D.groups.zipIdx.filter fun a => decide (i ∈ a.1)) = [] := by
    rw [List.filter_eq_nil_iff]
    intro a ha
    have h1 := (List.mem_zipIdx_iff_getElem?).1 ha
    simpa using (mem_rest.1 hi).2 a.1 (List.mem_of_getElem? h1)
  rw [e]
  rfl

/-- A list with a number for each group and each of the other blocks, read for a block. -/
theorem getD_owner (h : Ok D) (f : Nat → Nat) (hf : ∀ g ∈ D.groups, ∀ a ∈ g, ∀ b ∈ g, f a = f b) {i : Nat} (hi : i < D.n) :
    (D.groups.map (fun g => f (g.headD 0)) ++ D.rest.map f).getD (D.owner i) 0 = f i := by
  by_cases c : ∃ g ∈ D.groups, i ∈ g
  · obtain ⟨g, hg, hig⟩ := c
    obtain ⟨m, hm⟩ := List.getElem?_of_mem hg
    have hl : m < D.groups.length := (List.getElem?_eq_some_iff.1 hm).1
    rw [owner_group h hm hig, List.getD_eq_getElem?_getD, List.getElem?_append_left (by simpa using hl), List.getElem?_map, hm]
    show f (g.headD 0) = f i
    refine hf g hg _ ?_ _ hig
    cases g with
    | nil => cases hig
    | cons a g => simp
  · have hr : i ∈ D.rest := mem_rest.2 ⟨hi, fun g hg hig => c ⟨g, hg, hig⟩⟩
    rw [owner_rest hr, List.getD_eq_getElem?_getD, List.getElem?_append_right (by simp), List.length_map, Nat.add_sub_cancel_left,
      List.getElem?_map]
    have hl := List.idxOf_lt_length_of_mem hr
    rw [List.getElem?_eq_getElem hl, List.getElem_idxOf hl]
    rfl

theorem sizes_owner (h : Ok D) {i : Nat} (hi : i < D.n) : D.sizes.getD (D.owner i) 0 = D.size i :=
  getD_owner h D.size h.same hi

/-- Every counter is that of a block. -/
theorem owner_surj (h : Ok D) {m : Nat} (hm : m < D.sizes.length) : ∃ i, i < D.n ∧ D.owner i = m := by
  unfold Des.sizes at hm
  rw [List.length_append, List.length_map, List.length_map] at hm
  by_cases c : m < D.groups.length
  · have hg : D.groups[m]? = some D.groups[m] := List.getElem?_eq_getElem c
    have hmem := List.mem_of_getElem? hg
    obtain ⟨a, ha⟩ := List.exists_mem_of_ne_nil _ (h.ne _ hmem)
    exact ⟨a, h.mem _ hmem a ha, owner_group h hg ha⟩
  · have hl : m - D.groups.length < D.rest.length := by omega
    refine ⟨D.rest[m - D.groups.length], (mem_rest.1 (List.getElem_mem hl)).1, ?_⟩
    rw [owner_rest (List.getElem_mem hl)]
    have hn : D.rest.Nodup := List.nodup_range.filter _
    rw [hn.idxOf_getElem]
    omega

theorem owner_lt (h : Ok D) {i : Nat} (hi : i < D.n) : D.owner i < D.sizes.length := by
  by_contra c
  have := sizes_owner h hi
  rw [List.getD_eq_default _ _ (by omega)] at this
  have := h.pos i hi
  omega

theorem sizes_mem (h : Ok D) {a : Nat} (ha : a ∈ D.sizes) : ∃ i, i < D.n ∧ D.size i = a := by
  obtain ⟨m, hm⟩ := List.getElem?_of_mem ha
  obtain ⟨hl, -⟩ := List.getElem?_eq_some_iff.1 hm
  obtain ⟨i, hi, e⟩ := owner_surj h hl
  refine ⟨i, hi, ?_⟩
  rw [← sizes_owner h hi, e, List.getD_eq_getElem?_getD, hm]
  rfl

theorem sizes_pos (h : Ok D) : ∀ a ∈ D.sizes, 0 < a := fun a ha => by
  obtain ⟨i, hi, rfl⟩ := sizes_mem h ha
  exact h.pos i hi

theorem selection_get {c : List Nat} {i : Nat} (hi : i < D.n) : (D.selection c).getD i 0 = c.getD (D.owner i) 0 := by
  unfold Des.selection
  rw [List.getD_eq_getElem?_getD, List.getElem?_map, List.getElem?_range hi]
  rfl

theorem selection_choice (h : Ok D) {k : Nat} (hk : k < prod D.sizes) : Choice D (D.selection (dig D.sizes k)) := by
  refine ⟨by simp [Des.selection], fun i hi => ?_, fun g hg a ha b hb => ?_⟩
  · rw [selection_get hi, ← sizes_owner h hi]
    exact dig_lt _ _ hk (sizes_pos h) _ (owner_lt h hi)
  · obtain ⟨m, hm⟩ := List.getElem?_of_mem hg
    rw [selection_get (h.mem g hg a ha), selection_get (h.mem g hg b hb), owner_group h hm ha, owner_group h hm hb]

theorem selection_inj (h : Ok D) {j k : Nat} (hj : j < prod D.sizes) (hk : k < prod D.sizes)
    (e : D.selection (dig D.sizes j) = D.selection (dig D.sizes k)) : j = k := by
  refine dig_inj _ _ _ (sizes_pos h) hj hk ?_
  refine List.ext_getElem? fun m => ?_
  by_cases c : m < D.sizes.length
  · obtain ⟨i, hi, rfl⟩ := owner_surj h c
    have : (D.selection (dig D.sizes j)).getD i 0 = (D.selection (dig D.sizes k)).getD i 0 := by rw [e]
    rw [selection_get hi, selection_get hi, List.getD_eq_getElem?_getD, List.getD_eq_getElem?_getD,
      List.getElem?_eq_getElem (by rw [dig_length]; exact c), List.getElem?_eq_getElem (by rw [dig_length]; exact c)] at this
    rw [List.getElem?_eq_getElem (by rw [dig_length]; exact c), List.getElem?_eq_getElem (by rw [dig_length]; exact c)]
    exact congrArg some this
  · rw [List.getElem?_eq_none (by rw [dig_length]; omega), List.getElem?_eq_none (by rw [dig_length]; omega)]

theorem selection_surj (h : Ok D) {s : List Nat} (hs : Choice D s) : ∃ k, k < prod D.sizes ∧ D.selection (dig D.sizes k) = s := by
  have hv : ∀ {i}, i < D.n → (D.groups.map (fun g => s.getD (g.headD 0) 0) ++ D.rest.map fun i => s.getD i 0).getD (D.owner i) 0 = s.getD i 0 :=
    fun hi => getD_owner h (fun i => s.getD i 0) hs.2.2 hi
  obtain ⟨k, hk, e⟩ := dig_surj D.sizes (D.groups.map (fun g => s.getD (g.headD 0) 0) ++ D.rest.map fun i => s.getD i 0) (sizes_pos h)
    (by simp [Des.sizes]) fun m hm => by
      obtain ⟨i, hi, rfl⟩ := owner_surj h hm
      rw [hv hi, sizes_owner h hi]
      exact hs.2.1 i hi
  refine ⟨k, hk, ?_⟩
  rw [e]
  refine List.ext_getElem (by simp [Des.selection, hs.1]) fun i h1 h2 => ?_
  have hi : i < D.n := by rw [← hs.1]; exact h2
  have h3 : (D.selection (D.groups.map (fun g => s.getD (g.headD 0) 0) ++ D.rest.map fun i => s.getD i 0)).getD i 0 = s.getD i 0 := by
    rw [selection_get hi, hv hi]
  rw [List.getD_eq_getElem?_getD, List.getD_eq_getElem?_getD, List.getElem?_eq_getElem h1, List.getElem?_eq_getElem h2] at h3
  exact h3

end sel

/-! ## The states one after the other -/

/-- The sequences with number `i` and `j`. -/
def Mode.pos (n : Nat) : Mode → Nat → List Nat
  | .ordered p _, i => p.getD (i % p.length) []
  | .all next, i => next^[i] (List.range n)

def Mode.neg (n : Nat) : Mode → Nat → List Nat
  | .ordered _ q, j => q.getD (j % q.length) []
  | .all next, j => next^[j] (List.range n)

/-- The state after `t` steps, with `M` sequences on both sides. -/
def at' (D : Des) (m : Mode) (M t : Nat) : Sp :=
  let T := prod D.sizes
  { cnt := cnts D.sizes (t % T), selected := D.selection (dig D.sizes (t % T)), i := t / T / M, j := t / T % M,
    pos := m.pos D.n (t / T / M), neg := m.neg D.n (t / T % M), done := decide (t / T / M ≥ M) }

section steps

variable {D : Des} {m : Mode} {M : Nat}

theorem maxSize_le (D : Des) (m0 : Int) {i : Nat} (hi : i < D.n) : (D.size i : Int) ≤ maxSize D m0 := by
  unfold maxSize
  have mono : ∀ (l : List Nat) (a b : Int), b ≤ a → b ≤ l.foldl (fun (m : Int) i => max m (D.size i)) a := by
    intro l
    induction l with
    | nil => intro a b h; exact h
    | cons x l ih => intro a b h; exact ih _ _ (Int.le_trans h (Int.le_max_left _ _))
  have key : ∀ (l : List Nat) (a : Int), i ∈ l → (D.size i : Int) ≤ l.foldl (fun (m : Int) i => max m (D.size i)) a := by
    intro l
    induction l with
    | nil => intro a h; cases h
    | cons x l ih =>
      intro a h
      rcases List.mem_cons.1 h with h | h
      · subst h
        exact mono l (max a (D.size i)) _ (Int.le_max_right _ _)
      · exact ih _ h
  exact key _ _ (List.mem_range.2 hi)

theorem prod_one : ∀ {l : List Nat}, (∀ a ∈ l, a = 1) → prod l = 1
  | [], _ => rfl
  | a :: l, h => by rw [prod, h a (by simp), prod_one fun b hb => h b (by simp [hb])]

theorem start_eq (hM : 0 < M) : start D m = at' D m M 0 := by
  have hs : List.replicate D.n 0 = D.selection (dig D.sizes 0) := by
    refine List.ext_getElem (by simp [Des.selection]) fun i h1 h2 => ?_
    have hi : i < D.n := by simpa using h1
    have := selection_get (c := dig D.sizes 0) hi
    rw [dig_zero, List.getD_eq_getElem?_getD, List.getElem?_eq_getElem h2] at this
    rw [List.getElem_replicate]
    exact this.symm
  unfold start at'
  simp only [Nat.zero_mod, Nat.zero_div, cnts_zero, hs]
  have : decide (0 ≥ M) = false := by simp; omega
  rw [this]
  cases m <;> rfl

theorem permute_at (h : Ok D) (hM : 0 < M) (m0 : Int) {t : Nat} (ht : t < M * M * prod D.sizes) :
    permute D m M (maxSize D m0) (at' D m M t) = at' D m M (t + 1) := by
  have hT : 0 < prod D.sizes := prod_pos (sizes_pos h)
  have hr := Nat.mod_lt t hT
  have hk := Nat.div_add_mod t (prod D.sizes)
  have hd : t / prod D.sizes / M < M := by
    rw [Nat.div_div_eq_div_mul, Nat.div_lt_iff_lt_mul (Nat.mul_pos hT hM)]
    calc t < M * M * prod D.sizes := ht
      _ = M * (prod D.sizes * M) := by ring
  have hdone : (at' D m M t).done = false := by
    show decide _ = false
    simp only [ge_iff_le, decide_eq_false_iff_not]
    omega
  unfold permute
  rw [hdone]
  simp only [Bool.false_eq_true, if_false]
  have hinc := incr_cnts D.sizes (t % prod D.sizes) (sizes_pos h) hr
  by_cases c : t % prod D.sizes + 1 < prod D.sizes
  · have h1 : (t + 1) / prod D.sizes = t / prod D.sizes := by
      conv_lhs => rw [← hk]
      rw [Nat.add_assoc, Nat.mul_add_div hT, Nat.div_eq_of_lt c, Nat.add_zero]
    have h2 : (t + 1) % prod D.sizes = t % prod D.sizes + 1 := by
      conv_lhs => rw [← hk]
      rw [Nat.add_assoc, Nat.mul_add_mod, Nat.mod_eq_of_lt c]
    have hg : ¬ (maxSize D m0 ≤ 1 ∨ (at' D m M t).cnt.length < 1) := by
      have e : (at' D m M t).cnt.length = D.sizes.length := cnts_length _ _
      rw [e]
      rintro (g | g)
      · have : prod D.sizes = 1 := prod_one fun a ha => by
          have := sizes_pos h a ha
          obtain ⟨i, hi, rfl⟩ := sizes_mem h ha
          have := maxSize_le D m0 hi
          omega
        omega
      · have : D.sizes = [] := List.length_eq_zero_iff.1 (by omega)
        rw [this] at c
        simp [prod] at c
    rw [if_pos c] at hinc
    have hi : incSelected D (maxSize D m0) (at' D m M t) =
        ({ at' D m M t with cnt := cnts D.sizes (t % prod D.sizes + 1), selected := D.selection (dig D.sizes (t % prod D.sizes + 1)) }, true) := by
      unfold incSelected
      rw [if_neg hg]
      have : (at' D m M t).cnt = cnts D.sizes (t % prod D.sizes) := rfl
      rw [this, hinc]
      simp only [cnts_fst, Bool.not_false]
    rw [hi]
    simp only [if_true]
    unfold at'
    simp only [h1, h2]
  · have h4 : t % prod D.sizes + 1 = prod D.sizes := by omega
    have h5 : t + 1 = prod D.sizes * (t / prod D.sizes + 1) := by rw [Nat.mul_add, Nat.mul_one]; omega
    have h1 : (t + 1) / prod D.sizes = t / prod D.sizes + 1 := by rw [h5, Nat.mul_div_cancel_left _ hT]
    have h2 : (t + 1) % prod D.sizes = 0 := by rw [h5, Nat.mul_mod_right]
    rw [if_neg c] at hinc
    have hi : incSelected D (maxSize D m0) (at' D m M t) =
        ({ at' D m M t with cnt := cnts D.sizes 0, selected := D.selection (dig D.sizes 0) }, false) := by
      unfold incSelected
      by_cases hg : maxSize D m0 ≤ 1 ∨ (at' D m M t).cnt.length < 1
      · rw [if_pos hg]
        have e : (at' D m M t).cnt.length = D.sizes.length := cnts_length _ _
        rw [e] at hg
        have h1 : prod D.sizes = 1 := by
          rcases hg with g | g
          · refine prod_one fun a ha => ?_
            have := sizes_pos h a ha
            obtain ⟨i, hi, rfl⟩ := sizes_mem h ha
            have := maxSize_le D m0 hi
            omega
          · rw [List.length_eq_zero_iff.1 (by omega : D.sizes.length = 0)]; rfl
        have h0 : t % prod D.sizes = 0 := by omega
        have e1 : (at' D m M t).cnt = cnts D.sizes 0 := by show cnts D.sizes (t % prod D.sizes) = _; rw [h0]
        have e2 : (at' D m M t).selected = D.selection (dig D.sizes 0) := by show D.selection (dig D.sizes (t % prod D.sizes)) = _; rw [h0]
        rw [← e1, ← e2]
      · rw [if_neg hg]
        have : (at' D m M t).cnt = cnts D.sizes (t % prod D.sizes) := rfl
        rw [this, hinc]
        simp only [cnts_fst, Bool.not_true]
    rw [hi]
    simp only [Bool.false_eq_true, if_false]
    have hu := Nat.div_add_mod (t / prod D.sizes) M
    have hj := Nat.mod_lt (t / prod D.sizes) hM
    unfold at'
    simp only [h1, h2]
    by_cases g : t / prod D.sizes % M ≥ M - 1
    · have g5 : t / prod D.sizes + 1 = M * (t / prod D.sizes / M + 1) := by rw [Nat.mul_add, Nat.mul_one]; omega
      have g1 : (t / prod D.sizes + 1) / M = t / prod D.sizes / M + 1 := by rw [g5, Nat.mul_div_cancel_left _ hM]
      have g2 : (t / prod D.sizes + 1) % M = 0 := by rw [g5, Nat.mul_mod_right]
      rw [if_pos g]
      simp only [g1, g2]
      cases m with
      | ordered p q => rfl
      | all next => simp only [Mode.pos, Mode.neg, Function.iterate_succ_apply', Function.iterate_zero, id]
    · have g0 : t / prod D.sizes % M + 1 < M := by omega
      have g1 : (t / prod D.sizes + 1) / M = t / prod D.sizes / M := by
        conv_lhs => rw [← hu]
        rw [Nat.add_assoc, Nat.mul_add_div hM, Nat.div_eq_of_lt g0, Nat.add_zero]
      have g2 : (t / prod D.sizes + 1) % M = t / prod D.sizes % M + 1 := by
        conv_lhs => rw [← hu]
        rw [Nat.add_assoc, Nat.mul_add_mod, Nat.mod_eq_of_lt g0]
      rw [if_neg g]
      simp only [g1, g2]
      cases m with
      | ordered p q => rfl
      | all next => simp only [Mode.pos, Mode.neg, Function.iterate_succ_apply']

/-- What is placed after `t` steps. -/
def visit (D : Des) (m : Mode) (M t : Nat) : List Nat × List Nat × List Nat :=
  (m.pos D.n (t / prod D.sizes / M), m.neg D.n (t / prod D.sizes % M), D.selection (dig D.sizes (t % prod D.sizes)))

theorem at_done (h : Ok D) (hM : 0 < M) (t : Nat) : (at' D m M t).done = true ↔ M * M * prod D.sizes ≤ t := by
  have hT : 0 < prod D.sizes := prod_pos (sizes_pos h)
  show decide (M ≤ t / prod D.sizes / M) = true ↔ _
  rw [decide_eq_true_iff, Nat.div_div_eq_div_mul, Nat.le_div_iff_mul_le (Nat.mul_pos hT hM)]
  have : M * (prod D.sizes * M) = M * M * prod D.sizes := by ring
  rw [this]

theorem run_at (h : Ok D) (hM : 0 < M) (m0 : Int) : ∀ (k t : Nat), t ≤ M * M * prod D.sizes →
    run (permute D m M (maxSize D m0)) k (at' D m M t) =
      ((List.range (min k (M * M * prod D.sizes - t))).map fun r => visit D m M (t + r), at' D m M (t + min k (M * M * prod D.sizes - t))) := by
  intro k
  induction k with
  | zero => intro t _; simp [run]
  | succ k ih =>
    intro t ht
    rw [run]
    by_cases c : (at' D m M t).done = true
    · rw [if_pos c]
      have := (at_done h hM t).1 c
      have e : M * M * prod D.sizes - t = 0 := by omega
      rw [e]
      simp
    · rw [if_neg c]
      have hlt : t < M * M * prod D.sizes := by
        by_contra d
        exact c ((at_done h hM t).2 (by omega))
      rw [permute_at h hM m0 hlt, ih (t + 1) (by omega)]
      have e : min (k + 1) (M * M * prod D.sizes - t) = min k (M * M * prod D.sizes - (t + 1)) + 1 := by omega
      rw [e, List.range_succ_eq_map, List.map_cons, List.map_map]
      refine Prod.ext ?_ ?_
      · show _ :: _ = _ :: _
        refine congrArg₂ List.cons rfl ?_
        refine List.map_congr_left fun r _ => ?_
        show visit D m M (t + 1 + r) = visit D m M (t + (r + 1))
        rw [Nat.add_assoc, Nat.add_comm 1 r]
      · show at' D m M _ = at' D m M _
        congr 1
        omega

/-- All that is placed, if the sequences with different numbers below `M` are different. -/
theorem run_all (h : Ok D) (hM : 0 < M) (m0 : Int) (k : Nat) (hk : M * M * prod D.sizes ≤ k) :
    (run (permute D m M (maxSize D m0)) k (start D m)).2.done = true ∧
      (∀ p q s, (p, q, s) ∈ (run (permute D m M (maxSize D m0)) k (start D m)).1 ↔
        (∃ i, i < M ∧ m.pos D.n i = p) ∧ (∃ j, j < M ∧ m.neg D.n j = q) ∧ Choice D s) ∧
      ((∀ i j, i < M → j < M → m.pos D.n i = m.pos D.n j → i = j) → (∀ i j, i < M → j < M → m.neg D.n i = m.neg D.n j → i = j) →
        (run (permute D m M (maxSize D m0)) k (start D m)).1.Nodup) := by
  have hT : 0 < prod D.sizes := prod_pos (sizes_pos h)
  rw [start_eq hM, run_at h hM m0 k 0 (Nat.zero_le _)]
  have e : min k (M * M * prod D.sizes - 0) = M * M * prod D.sizes := by omega
  rw [e]
  simp only [Nat.zero_add]
  refine ⟨(at_done h hM _).2 (Nat.le_refl _), fun p q s => ?_, fun hp hq => ?_⟩
  · rw [List.mem_map]
    constructor
    · rintro ⟨t, ht, et⟩
      rw [List.mem_range] at ht
      unfold visit at et
      rw [Prod.mk.injEq, Prod.mk.injEq] at et
      refine ⟨⟨_, ?_, et.1⟩, ⟨_, Nat.mod_lt _ hM, et.2.1⟩, ?_⟩
      · rw [Nat.div_div_eq_div_mul, Nat.div_lt_iff_lt_mul (Nat.mul_pos hT hM)]
        calc t < M * M * prod D.sizes := ht
          _ = M * (prod D.sizes * M) := by ring
      · rw [← et.2.2]
        exact selection_choice h (Nat.mod_lt _ hT)
    · rintro ⟨⟨i, hi, ei⟩, ⟨j, hj, ej⟩, hs⟩
      obtain ⟨r, hr, er⟩ := selection_surj h hs
      have h1 : (prod D.sizes * (M * i + j) + r) / prod D.sizes = M * i + j := by rw [Nat.mul_add_div hT, Nat.div_eq_of_lt hr, Nat.add_zero]
      have h2 : (M * i + j) / M = i := by rw [Nat.mul_add_div hM, Nat.div_eq_of_lt hj, Nat.add_zero]
      refine ⟨prod D.sizes * (M * i + j) + r, List.mem_range.2 ?_, ?_⟩
      · have h3 : M * i + j < M * M := by
          rw [← Nat.div_lt_iff_lt_mul hM, h2]; exact hi
        rw [← Nat.div_lt_iff_lt_mul hT, h1]; exact h3
      · unfold visit
        rw [h1, h2, Nat.mul_add_mod M, Nat.mod_eq_of_lt hj, Nat.mul_add_mod (prod D.sizes), Nat.mod_eq_of_lt hr, ei, ej, er]
  · refine List.nodup_range.map_on ?_
    intro t ht u hu he
    rw [List.mem_range] at ht hu
    unfold visit at he
    rw [Prod.mk.injEq, Prod.mk.injEq] at he
    have hlt : ∀ t, t < M * M * prod D.sizes → t / prod D.sizes / M < M := fun t ht => by
      rw [Nat.div_div_eq_div_mul, Nat.div_lt_iff_lt_mul (Nat.mul_pos hT hM)]
      calc t < M * M * prod D.sizes := ht
        _ = M * (prod D.sizes * M) := by ring
    have h1 := hp _ _ (hlt t ht) (hlt u hu) he.1
    have h2 := hq _ _ (Nat.mod_lt _ hM) (Nat.mod_lt _ hM) he.2.1
    have h3 := selection_inj h (Nat.mod_lt _ hT) (Nat.mod_lt _ hT) he.2.2
    have h4 : t / prod D.sizes = u / prod D.sizes := by
      rw [← Nat.div_add_mod (t / prod D.sizes) M, ← Nat.div_add_mod (u / prod D.sizes) M, h1, h2]
    rw [← Nat.div_add_mod t (prod D.sizes), ← Nat.div_add_mod u (prod D.sizes), h3, h4]

end steps

/-! ## The mode -/

section mode

variable {D : Des} {next : List Nat → List Nat} {maxIter : Nat}

theorem choose_ordered {p q : List (List Nat)} {M : Nat} (h : choose D next maxIter = some (.ordered p q, M)) :
    orders D.n D.cs (ceilSqrt maxIter) true = some p ∧ orders D.n D.cs (ceilSqrt maxIter) false = some q ∧ M = p.length := by
  unfold choose at h
  cases e1 : orders D.n D.cs (ceilSqrt maxIter) true <;> cases e2 : orders D.n D.cs (ceilSqrt maxIter) false <;> rw [e1, e2] at h <;>
    simp only at h <;> split_ifs at h <;> simp_all; rw [← h.2, h.1.1]

theorem choose_of {p q : List (List Nat)} (h1 : orders D.n D.cs (ceilSqrt maxIter) true = some p)
    (h2 : orders D.n D.cs (ceilSqrt maxIter) false = some q) (h3 : p.length * prod D.sizes ≤ maxIter) :
    choose D next maxIter = some (.ordered p q, p.length) := by
  unfold choose
  rw [h1, h2]
  simp only
  rw [if_neg (by omega)]

theorem choose_all {nx : List Nat → List Nat} {M : Nat} (h : choose D next maxIter = some (.all nx, M)) :
    (orders D.n D.cs (ceilSqrt maxIter) true = none ∨ orders D.n D.cs (ceilSqrt maxIter) false = none) ∧ nx = next ∧ M = D.n.factorial ∧
      D.n.factorial * D.n.factorial < maxIter ∧ D.n.factorial * D.n.factorial * prod D.sizes ≤ maxIter := by
  unfold choose at h
  cases e1 : orders D.n D.cs (ceilSqrt maxIter) true <;> cases e2 : orders D.n D.cs (ceilSqrt maxIter) false <;> rw [e1, e2] at h <;>
    simp only at h <;> split_ifs at h <;> simp_all

theorem ext_pos {l : List Nat} : Ext D.n (D.cs.map (edge true)) l ↔ l.Perm (List.range D.n) ∧ ∀ o ∈ D.cs, Before l o.1.1 o.1.2 := by
  unfold Ext
  refine and_congr_right fun _ => ?_
  rw [List.forall_mem_map]
  simp [edge]

theorem ext_neg {l : List Nat} : Ext D.n (D.cs.map (edge false)) l ↔
    l.Perm (List.range D.n) ∧ ∀ o ∈ D.cs, (o.2 = .H → Before l o.1.1 o.1.2) ∧ (o.2 = .V → Before l o.1.2 o.1.1) := by
  unfold Ext
  refine and_congr_right fun _ => ?_
  rw [List.forall_mem_map]
  refine forall_congr' fun o => forall_congr' fun _ => ?_
  obtain ⟨o, a⟩ := o
  cases a <;> simp [edge]

theorem ext_has {p q : List Nat} : Ext D.n (D.cs.map (edge true)) p ∧ Ext D.n (D.cs.map (edge false)) q ↔
    p.Perm (List.range D.n) ∧ q.Perm (List.range D.n) ∧ Has D p q := by
  rw [ext_pos, ext_neg]
  unfold Has
  constructor
  · rintro ⟨⟨h1, h2⟩, h3, h4⟩
    exact ⟨h1, h3, fun o ho => ⟨fun e => ⟨h2 o ho, (h4 o ho).1 e⟩, fun e => ⟨h2 o ho, (h4 o ho).2 e⟩⟩⟩
  · rintro ⟨h1, h2, h3⟩
    refine ⟨⟨h1, fun o ho => ?_⟩, h2, fun o ho => ⟨fun e => ((h3 o ho).1 e).2, fun e => ((h3 o ho).2 e).2⟩⟩
    cases e : o.2
    · exact ((h3 o ho).1 e).1
    · exact ((h3 o ho).2 e).1

theorem mod_get {l : List (List Nat)} {i : Nat} (hi : i < l.length) : l.getD (i % l.length) [] = l[i] := by
  rw [Nat.mod_eq_of_lt hi, List.getD_eq_getElem?_getD, List.getElem?_eq_getElem hi]
  rfl

theorem ceilSqrt_le (m : Nat) : m ≤ ceilSqrt m * ceilSqrt m := by
  unfold ceilSqrt
  cases e : (List.range (m + 1)).find? fun k => decide (m ≤ k * k) with
  | some k => simpa using List.find?_some e
  | none =>
    exfalso
    rw [List.find?_eq_none] at e
    have := e m (by simp)
    simp only [decide_eq_true_eq] at this
    apply this
    cases m with
    | zero => simp
    | succ m => exact Nat.le_mul_of_pos_left _ (by omega)

theorem perms_length {n : Nat} {l : List (List Nat)} (hn : l.Nodup) (h : ∀ p ∈ l, p.Perm (List.range n)) : l.length ≤ n.factorial := by
  have := (hn.subperm fun p hp => List.mem_permutations.2 (h p hp)).length_le
  rw [List.length_permutations, List.length_range] at this
  exact this

theorem same_number (hd : ∀ o ∈ D.cs, ∀ o' ∈ D.cs, o.2 = o'.2) (hcs : ∀ o ∈ D.cs, o.1.1 < D.n ∧ o.1.2 < D.n) {max : Nat} {p q : List (List Nat)}
    (hp : orders D.n D.cs max true = some p) (hq : orders D.n D.cs max false = some q) : p.length = q.length := by
  obtain ⟨n1, m1, -⟩ := orders_spec hcs hp
  obtain ⟨n2, m2, -⟩ := orders_spec hcs hq
  by_cases c : ∃ o ∈ D.cs, o.2 = .V
  · obtain ⟨o, ho, hV⟩ := c
    have allV : ∀ o' ∈ D.cs, o'.2 = .V := fun o' h' => by rw [← hd o ho o' h', hV]
    have key : ∀ l, Ext D.n (D.cs.map (edge true)) l ↔ Ext D.n (D.cs.map (edge false)) l.reverse := by
      intro l
      rw [ext_pos, ext_neg]
      refine and_congr ⟨fun h => (List.reverse_perm l).trans h, fun h => (List.reverse_perm l).symm.trans h⟩ ?_
      refine forall_congr' fun o => forall_congr' fun ho => ?_
      rw [Moves.before_reverse, Moves.before_reverse, allV o ho]
      simp
    have inj : Function.Injective (List.reverse (α := Nat)) := List.reverse_injective
    refine Nat.le_antisymm ?_ ?_
    · have := ((List.nodup_map_iff inj).2 n1).subperm (l₂ := q) fun l hl => by
        obtain ⟨k, hk, rfl⟩ := List.mem_map.1 hl
        exact (m2 _).2 ((key k).1 ((m1 k).1 hk))
      simpa using this.length_le
    · have := ((List.nodup_map_iff inj).2 n2).subperm (l₂ := p) fun l hl => by
        obtain ⟨k, hk, rfl⟩ := List.mem_map.1 hl
        refine (m1 _).2 ((key _).2 ?_)
        rw [List.reverse_reverse]
        exact (m2 k).1 hk
      simpa using this.length_le
  · have e : D.cs.map (edge true) = D.cs.map (edge false) := by
      refine List.map_congr_left fun o ho => ?_
      have : o.2 ≠ .V := fun h => c ⟨o, ho, h⟩
      simp [edge, this]
    refine Nat.le_antisymm ?_ ?_
    · exact (n1.subperm fun l hl => (m2 l).2 (by rw [← e]; exact (m1 l).1 hl)).length_le
    · exact (n2.subperm fun l hl => (m1 l).2 (by rw [e]; exact (m2 l).1 hl)).length_le

end mode

/-! ## The property -/

/-- The sequence pairs made from the two lists are those that have the orders of the user. No sequence is listed twice. -/
theorem C104_sequences {D : Des} (h : Ok D) {max : Nat} {p q : List (List Nat)} (hp : orders D.n D.cs max true = some p)
    (hq : orders D.n D.cs max false = some q) :
    p.Nodup ∧ q.Nodup ∧ p.length ≤ max ∧ q.length ≤ max ∧
      ∀ a b, (a ∈ p ∧ b ∈ q) ↔ a.Perm (List.range D.n) ∧ b.Perm (List.range D.n) ∧ Has D a b := by
  obtain ⟨n1, m1, -, l1⟩ := orders_spec h.cs hp
  obtain ⟨n2, m2, -, l2⟩ := orders_spec h.cs hq
  exact ⟨n1, n2, l1, l2, fun a b => by rw [m1, m2]; exact ext_has⟩

/-- Without orders all sequence pairs are placed, each with all choices of variants, each exactly once and within the number of
iterations, whatever `_maxSize` is at the beginning. -/
theorem C104_all {D : Des} (h : Ok D) {next nx : List Nat → List Nat} (hnext : Next D.n next) {maxIter M : Nat}
    (hc : choose D next maxIter = some (.all nx, M)) (m0 : Int) :
    (run (permute D (.all nx) M (maxSize D m0)) maxIter (start D (.all nx))).2.done = true ∧
    (run (permute D (.all nx) M (maxSize D m0)) maxIter (start D (.all nx))).1.Nodup ∧
    ∀ p q s, (p, q, s) ∈ (run (permute D (.all nx) M (maxSize D m0)) maxIter (start D (.all nx))).1 ↔
      p.Perm (List.range D.n) ∧ q.Perm (List.range D.n) ∧ Choice D s := by
  obtain ⟨-, rfl, rfl, -, hle⟩ := choose_all hc
  obtain ⟨h1, h2, h3⟩ := run_all (m := .all nx) h (Nat.factorial_pos _) m0 maxIter hle
  have inj : ∀ i j, i < D.n.factorial → j < D.n.factorial → nx^[i] (List.range D.n) = nx^[j] (List.range D.n) → i = j := by
    intro i j hi hj e
    exact List.inj_on_of_nodup_map hnext.nodup (List.mem_range.2 hi) (List.mem_range.2 hj) e
  refine ⟨h1, h3 inj inj, fun p q s => ?_⟩
  rw [h2]
  have key : ∀ l : List Nat, (∃ i, i < D.n.factorial ∧ nx^[i] (List.range D.n) = l) ↔ l.Perm (List.range D.n) := fun l =>
    ⟨fun ⟨i, _, e⟩ => e ▸ hnext.perm i, fun hl => hnext.mem l hl⟩
  exact and_congr (key p) (and_congr (key q) Iff.rfl)

/-- If there are orders and all sequence pairs are placed, then no sequence pair has the orders. -/
theorem C104_contradiction {D : Des} (h : Ok D) {next nx : List Nat → List Nat} {maxIter M : Nat}
    (hc : choose D next maxIter = some (.all nx, M)) (hne : D.cs ≠ []) (p q : List Nat) (hp : p.Perm (List.range D.n))
    (hq : q.Perm (List.range D.n)) : ¬ Has D p q := by
  intro hh
  obtain ⟨h0, -, -, hlt, -⟩ := choose_all hc
  have hx := ext_has.2 ⟨hp, hq, hh⟩
  have hbig : D.n.factorial ≤ ceilSqrt maxIter := by
    have := ceilSqrt_le maxIter
    by_contra c
    have := Nat.mul_self_lt_mul_self (Nat.lt_of_not_le c)
    omega
  rcases h0 with h0 | h0
  · rcases orders_none h.cs h0 with g | g | ⟨l, g1, g2, g3⟩
    · exact hne g
    · exact g p hx.1
    · have := perms_length g1 fun a ha => (g2 a ha).1
      omega
  · rcases orders_none h.cs h0 with g | g | ⟨l, g1, g2, g3⟩
    · exact hne g
    · exact g q hx.2
    · have := perms_length g1 fun a ha => (g2 a ha).1
      omega

/-- With orders, all that is placed has them, and a possible choice of variants, however long the loop runs. -/
theorem C104_kept {D : Des} (h : Ok D) {next : List Nat → List Nat} {maxIter M : Nat} {p q : List (List Nat)}
    (hc : choose D next maxIter = some (.ordered p q, M)) (m0 : Int) (k : Nat) :
    ∀ v ∈ (run (permute D (.ordered p q) M (maxSize D m0)) k (start D (.ordered p q))).1,
      v.1.Perm (List.range D.n) ∧ v.2.1.Perm (List.range D.n) ∧ Has D v.1 v.2.1 ∧ Choice D v.2.2 := by
  obtain ⟨hp, hq, rfl⟩ := choose_ordered hc
  obtain ⟨-, m1, l1, -⟩ := orders_spec h.cs hp
  obtain ⟨-, m2, l2, -⟩ := orders_spec h.cs hq
  intro v hv
  rw [start_eq l1, run_at h l1 m0 k 0 (Nat.zero_le _)] at hv
  obtain ⟨t, -, rfl⟩ := List.mem_map.1 hv
  have get : ∀ {l : List (List Nat)} (i : Nat), 0 < l.length → l.getD (i % l.length) [] ∈ l := fun i hl => by
    rw [List.getD_eq_getElem?_getD, List.getElem?_eq_getElem (Nat.mod_lt _ hl)]
    exact List.getElem_mem _
  have := ext_has.1 ⟨(m1 _).1 (get ((0 + t) / prod D.sizes / p.length) l1), (m2 _).1 (get ((0 + t) / prod D.sizes % p.length) l2)⟩
  exact ⟨this.1, this.2.1, this.2.2, selection_choice h (Nat.mod_lt _ (prod_pos (sizes_pos h)))⟩

/-- With orders of one direction only, all sequence pairs that have them are placed, each with all choices of variants and each
exactly once. Missing: orders of both directions, and the number of iterations (see the violations below). -/
theorem C104_ordered_partial {D : Des} (h : Ok D) {next : List Nat → List Nat} {maxIter M : Nat} {p q : List (List Nat)}
    (hc : choose D next maxIter = some (.ordered p q, M)) (hd : ∀ o ∈ D.cs, ∀ o' ∈ D.cs, o.2 = o'.2) (m0 : Int) :
    ∃ k, (run (permute D (.ordered p q) M (maxSize D m0)) k (start D (.ordered p q))).2.done = true ∧
      (run (permute D (.ordered p q) M (maxSize D m0)) k (start D (.ordered p q))).1.Nodup ∧
      ∀ a b s, (a, b, s) ∈ (run (permute D (.ordered p q) M (maxSize D m0)) k (start D (.ordered p q))).1 ↔
        a.Perm (List.range D.n) ∧ b.Perm (List.range D.n) ∧ Has D a b ∧ Choice D s := by
  obtain ⟨hp, hq, rfl⟩ := choose_ordered hc
  obtain ⟨n1, m1, l1, -⟩ := orders_spec h.cs hp
  obtain ⟨n2, m2, l2, -⟩ := orders_spec h.cs hq
  have hl := same_number hd h.cs hp hq
  obtain ⟨h1, h2, h3⟩ := run_all (m := .ordered p q) h l1 m0 _ (Nat.le_refl _)
  have inj : ∀ l : List (List Nat), l.Nodup → ∀ i j, i < l.length → j < l.length → l.getD (i % l.length) [] = l.getD (j % l.length) [] → i = j := by
    intro l hn i j hi hj e
    rw [mod_get hi, mod_get hj] at e
    exact (hn.getElem_inj_iff).1 e
  have key : ∀ (l : List (List Nat)) (a : List Nat), (∃ i, i < l.length ∧ l.getD (i % l.length) [] = a) ↔ a ∈ l := by
    intro l a
    constructor
    · rintro ⟨i, hi, rfl⟩
      rw [mod_get hi]
      exact List.getElem_mem _
    · intro ha
      obtain ⟨i, hi, e⟩ := List.getElem_of_mem ha
      exact ⟨i, hi, by rw [mod_get hi]; exact e⟩
  refine ⟨_, h1, h3 (inj p n1) (fun i j hi hj => inj q n2 i j (by omega) (by omega)), fun a b s => ?_⟩
  rw [h2]
  have e1 : (∃ i, i < p.length ∧ (Mode.ordered p q).pos D.n i = a) ↔ a ∈ p := key p a
  have e2 : (∃ j, j < p.length ∧ (Mode.ordered p q).neg D.n j = b) ↔ b ∈ q := by
    rw [hl]; exact key q b
  rw [e1, e2, m1, m2, ← and_assoc, ext_has]
  simp only [and_assoc]

/-! ## Examples and violations -/

/-- Two blocks with one and two variants. -/
def exAll : Des := ⟨2, fun i => i + 1, [], []⟩

theorem exAll_ok : Ok exAll := ⟨fun i _ => Nat.succ_pos i, by simp [exAll], by simp [exAll], by simp [exAll], by simp [exAll], by simp [exAll]⟩

theorem next_two : Next 2 List.reverse where
  nodup := by decide
  mem := by
    intro l hl
    have hm := List.mem_permutations'.2 hl
    have : ∀ l ∈ (List.range 2).permutations', l = List.reverse^[0] (List.range 2) ∨ l = List.reverse^[1] (List.range 2) := by decide
    rcases this l hm with e | e
    · exact ⟨0, by decide, e.symm⟩
    · exact ⟨1, by decide, e.symm⟩
  perm := by
    intro k
    induction k with
    | zero => exact List.Perm.refl _
    | succ k ih => rw [Function.iterate_succ_apply']; exact (List.reverse_perm _).trans ih

example : ∃ nx M, choose exAll List.reverse 8 = some (.all nx, M) ∧ Ok exAll ∧ Next exAll.n List.reverse := by
  refine ⟨List.reverse, 2, ?_, exAll_ok, next_two⟩
  rfl

/-- Contradicting orders. -/
def exContra : Des := ⟨2, fun _ => 1, [], [((0, 1), .H), ((1, 0), .H)]⟩

theorem ok_of {n : Nat} {cs : List ((Nat × Nat) × Axis)} {size : Nat → Nat} (hs : ∀ i, 0 < size i) (hcs : ∀ o ∈ cs, o.1.1 < n ∧ o.1.2 < n) :
    Ok ⟨n, size, [], cs⟩ := ⟨fun i _ => hs i, by simp, by simp, by simp, by simp, hcs⟩

example : Ok exContra ∧ exContra.cs ≠ [] ∧ ∃ nx M, choose exContra List.reverse 8 = some (.all nx, M) :=
  ⟨ok_of (by simp) (by decide), by simp [exContra], List.reverse, 2, rfl⟩

/-- Orders of one direction, with two blocks that have the same variant. -/
def exOrd : Des := ⟨3, fun i => if i = 0 then 1 else 2, [[1, 2]], [((0, 1), .H), ((0, 2), .H)]⟩

theorem exOrd_ok : Ok exOrd where
  pos := fun i _ => by simp only [exOrd]; split <;> omega
  ne := by simp [exOrd]
  mem := by simp [exOrd]
  same := by simp [exOrd]
  disj := by
    intro k l g h hk hl a _ _
    have h1 : k < 1 := (List.getElem?_eq_some_iff.1 hk).1
    have h2 : l < 1 := (List.getElem?_eq_some_iff.1 hl).1
    omega
  cs := by decide

example : ∃ p q M, choose exOrd List.reverse 460 = some (.ordered p q, M) ∧ Ok exOrd ∧ (∀ o ∈ exOrd.cs, ∀ o' ∈ exOrd.cs, o.2 = o'.2) :=
  ⟨[[0, 1, 2], [0, 2, 1]], [[0, 1, 2], [0, 2, 1]], 2, choose_of (by decide +kernel) (by decide +kernel) (by decide), exOrd_ok, by decide⟩

/-- The first sequence of a pair decides how many second sequences are used. Of the two sequence pairs with block 0 left of 1 and 1 above 2
only one is placed, and the loop ends because all are exhausted. -/
theorem C104_violated_missed : ∃ (D : Des) (p q : List (List Nat)) (M : Nat), Ok D ∧ choose D List.reverse 460 = some (.ordered p q, M) ∧
    ∀ m0, (run (permute D (.ordered p q) M (maxSize D m0)) 460 (start D (.ordered p q))).2.done = true ∧
      ∃ a b s, a.Perm (List.range D.n) ∧ b.Perm (List.range D.n) ∧ Has D a b ∧ Choice D s ∧
        (a, b, s) ∉ (run (permute D (.ordered p q) M (maxSize D m0)) 460 (start D (.ordered p q))).1 := by
  have hok : Ok ⟨3, fun _ => 1, [], [((0, 1), .H), ((1, 2), .V)]⟩ := ok_of (by simp) (by decide)
  refine ⟨⟨3, fun _ => 1, [], [((0, 1), .H), ((1, 2), .V)]⟩, [[0, 1, 2]], [[0, 2, 1], [2, 0, 1]], 1, hok,
    choose_of (by decide +kernel) (by decide +kernel) (by decide), fun m0 => ?_⟩
  obtain ⟨h1, h2, -⟩ := run_all (M := 1) (m := .ordered [[0, 1, 2]] [[0, 2, 1], [2, 0, 1]]) hok (by decide) m0 460 (by decide)
  refine ⟨h1, [0, 1, 2], [2, 0, 1], [0, 0, 0], by decide, by decide, ?_, ?_, ?_⟩
  · intro o ho
    simp only [List.mem_cons, List.not_mem_nil, or_false] at ho
    rcases ho with rfl | rfl
    · exact ⟨fun _ => ⟨⟨0, 1, by decide, rfl, rfl⟩, ⟨1, 2, by decide, rfl, rfl⟩⟩, fun h => by cases h⟩
    · exact ⟨fun h => (by cases h), fun _ => ⟨⟨1, 2, by decide, rfl, rfl⟩, ⟨0, 2, by decide, rfl, rfl⟩⟩⟩
  · refine ⟨rfl, fun i hi => ?_, by simp⟩
    have hi : i < 3 := hi
    interval_cases i <;> decide
  · rw [h2]
    rintro ⟨-, ⟨j, hj, e⟩, -⟩
    have : j = 0 := by omega
    subst this
    revert e
    decide

/-- With 0 left of 1 and 2 above 1 there are two first sequences and one second: each sequence pair is placed twice. -/
theorem C104_violated_repeat : ∃ (D : Des) (p q : List (List Nat)) (M : Nat), Ok D ∧ choose D List.reverse 460 = some (.ordered p q, M) ∧
    ¬ (run (permute D (.ordered p q) M (maxSize D 0)) 460 (start D (.ordered p q))).1.Nodup := by
  refine ⟨⟨3, fun _ => 1, [], [((0, 1), .H), ((2, 1), .V)]⟩, [[0, 2, 1], [2, 0, 1]], [[0, 1, 2]], 2, ok_of (by simp) (by decide),
    choose_of (by decide +kernel) (by decide +kernel) (by decide), ?_⟩
  decide +kernel

/-- The number of iterations is compared with the number of first sequences only: with three sequences and three variants the loop is
not done after the nine iterations that were allowed. -/
theorem C104_violated_budget : ∃ (D : Des) (p q : List (List Nat)) (M : Nat), Ok D ∧ choose D List.reverse 9 = some (.ordered p q, M) ∧
    (run (permute D (.ordered p q) M (maxSize D 0)) 9 (start D (.ordered p q))).2.done = false := by
  refine ⟨⟨3, fun i => if i = 0 then 3 else 1, [], [((0, 1), .H)]⟩, [[0, 1, 2], [0, 2, 1], [2, 0, 1]], [[0, 1, 2], [0, 2, 1], [2, 0, 1]], 3,
    ok_of (fun i => by split <;> omega) (by decide), choose_of (by decide +kernel) (by decide +kernel) (by decide), ?_⟩
  decide +kernel

end Verif.Enum

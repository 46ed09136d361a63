import Verif.Pnr.AStar
import Mathlib.Tactic.Linarith
import Mathlib.Data.List.Basic

/-!
# Wires of a route (C113, C114)

What the detailed router draws for a path that the search has found: the path is cut into wires, one per stay on a layer
(`A_star::ConvertPathintoPhysical`), each wire is told how to grow to the shortest length that its layer allows
(`A_star::extend_manner_direction_check`), and is grown (`GcellDetailRouter::returnPath_new`, `ExtendMetals`, `ExtendX`, `ExtendY`,
`ExtendX_PN`, `ExtendY_PN`). Widths and rectangles are left out; a wire is its layer and the ends of its centre line.
-/

namespace Verif.Wires
open Verif.AStar

/-! ## The code -/

/-- A wire from node `s` to node `j` (`A_star.cpp` 86-110). -/
def wire (g : Grid) (s j : Nat) : Wire := ⟨(g.vert s).metal, (g.vert s).x, (g.vert s).y, (g.vert j).x, (g.vert j).y⟩

/-- `ConvertPathintoPhysical` (`A_star.cpp` 75-115) for one path; `st` is the node where the wire in hand begins, none if
`flag_start_write` is set. -/
def convert (g : Grid) : Option Nat → List Nat → List Wire
  | _, [] => []
  | st, j :: l =>
    let s := st.getD j
    match l with
    | [] => [wire g s j]
    | k :: _ => if (g.vert j).metal ≠ (g.vert k).metal then wire g s j :: convert g none l else convert g (some s) l

/-- The first loop of `extend_manner_direction_check` (`A_star.cpp` 1175-1205): first and last node of each stay on a layer. -/
def pairs (g : Grid) : Option (Nat × Nat) → List Nat → List (Nat × Nat)
  | cur, [] => cur.toList
  | none, n :: l => pairs g (some (n, n)) l
  | some (a, b), n :: l =>
    if (g.vert n).metal ≠ (g.vert a).metal then (a, b) :: pairs g (some (n, n)) l else pairs g (some (a, n)) l

/-- The second loop (`A_star.cpp` 1207-1232) for the wire `i` of `n`; 2 is to grow to larger coordinates, 3 to smaller ones, 4 the
"bug case". `direction` is what `CheckExendable_With_Certain_Length_Head_Extend` and `_Tail_Extend` return (432-526). -/
def labelOf (g : Grid) (r : Rules) (n i a b : Nat) : Nat :=
  if i = 0 ∨ i + 1 = n then 0
  else if r.minL (g.vert a).metal ≤ dist g a b then 0
  else if extBoth g a b (dist g a b) (r.minL (g.vert a).metal) then 1
  else if extHead g a b (dist g a b) (r.minL (g.vert a).metal) then (if headDir a b = 1 then 2 else 3)
  else if extTail g a b (dist g a b) (r.minL (g.vert a).metal) then (if -headDir a b = 1 then 2 else 3)
  else 4

/-- `extend_manner_direction_check` (`A_star.cpp` 1175-1234). -/
def labels (g : Grid) (r : Rules) (p : List Nat) : List Nat :=
  (pairs g none p).zipIdx.map (fun e => labelOf g r (pairs g none p).length e.2 e.1.1 e.1.2)

/-- `ExtendX` (`GcellDetailRouter.cpp` 3271-3284). -/
def extX (w : Wire) (d : Int) : Wire :=
  if w.x0 < w.x1 then { w with x0 := w.x0 - d, x1 := w.x1 + d } else { w with x0 := w.x0 + d, x1 := w.x1 - d }

/-- `ExtendY` (`GcellDetailRouter.cpp` 3286-3299). -/
def extY (w : Wire) (d : Int) : Wire :=
  if w.y0 < w.y1 then { w with y0 := w.y0 - d, y1 := w.y1 + d } else { w with y0 := w.y0 + d, y1 := w.y1 - d }

/-- `ExtendX_PN` (`GcellDetailRouter.cpp` 3301-3333). -/
def extXpn (w : Wire) (d : Int) (p : Bool) : Wire :=
  if p then (if w.x0 < w.x1 then { w with x1 := w.x1 + d } else { w with x0 := w.x0 + d })
  else (if w.x0 < w.x1 then { w with x0 := w.x0 - d } else { w with x1 := w.x1 - d })

/-- `ExtendY_PN` (`GcellDetailRouter.cpp` 3335-3367). -/
def extYpn (w : Wire) (d : Int) (p : Bool) : Wire :=
  if p then (if w.y0 < w.y1 then { w with y1 := w.y1 + d } else { w with y0 := w.y0 + d })
  else (if w.y0 < w.y1 then { w with y0 := w.y0 - d } else { w with y1 := w.y1 - d })

/-- The length of a wire (`GcellDetailRouter.cpp` 3384-3385). -/
def length (w : Wire) : Int := |w.x0 - w.x1| + |w.y0 - w.y1|

/-- One round of `ExtendMetals` (`GcellDetailRouter.cpp` 3375-3432) and of `ExtendMetalsPhysicalPath` (613-664). `ceil(..) / 2` is cut
to an integer after the division. -/
def extend (r : Rules) (w : Wire) (label : Nat) : Wire :=
  if label = 0 then w
  else if length w < r.minL w.metal ∧ label = 1 then
    (if r.horizontal w.metal then extX w (Int.tdiv (r.minL w.metal - length w) 2) else extY w (Int.tdiv (r.minL w.metal - length w) 2))
  else if length w < r.minL w.metal ∧ label = 2 then
    (if r.horizontal w.metal then extXpn w (r.minL w.metal - length w) true else extYpn w (r.minL w.metal - length w) true)
  else if length w < r.minL w.metal ∧ label = 3 then
    (if r.horizontal w.metal then extXpn w (r.minL w.metal - length w) false else extYpn w (r.minL w.metal - length w) false)
  else w

/-- `returnPath_new` (`GcellDetailRouter.cpp` 516-535) for one path of a net without wires so far: `none` is the failing `assert` of
`ExtendMetals` (3370-3372) or a label that does not exist. -/
def drawn (g : Grid) (r : Rules) (p : List Nat) : Option (List Wire) :=
  if (convert g none p).length ≠ (labels g r p).length then none else some (List.zipWith (extend r) (convert g none p) (labels g r p))

/-! ## What the properties say -/

/-- The point is on the wire. -/
def On (w : Wire) (metal : Nat) (x y : Int) : Prop :=
  w.metal = metal ∧ min w.x0 w.x1 ≤ x ∧ x ≤ max w.x0 w.x1 ∧ min w.y0 w.y1 ≤ y ∧ y ≤ max w.y0 w.y1

/-- The wire runs in the direction of its layer. -/
def Straight (r : Rules) (w : Wire) : Prop := if r.horizontal w.metal then w.y0 = w.y1 else w.x0 = w.x1

/-- The wires realise the path: they begin and end where it does, each begins where the one before ends, one layer up or down, by a via
which is a step of the path; they run in the direction of their layers, and every node of the path is on a wire. -/
structure Joined (g : Grid) (r : Rules) (p : List Nat) (W : List Wire) : Prop where
  first : ∃ s l w V, p = s :: l ∧ W = w :: V ∧ w.metal = (g.vert s).metal ∧ w.x0 = (g.vert s).x ∧ w.y0 = (g.vert s).y
  last : ∃ d l w V, p = l ++ [d] ∧ W = V ++ [w] ∧ w.metal = (g.vert d).metal ∧ w.x1 = (g.vert d).x ∧ w.y1 = (g.vert d).y
  vias : ∀ w w' V V', W = V ++ w :: w' :: V' → (w'.metal = w.metal + 1 ∨ w.metal = w'.metal + 1) ∧ w.x1 = w'.x0 ∧ w.y1 = w'.y0
    ∧ ∃ a b l l', p = l ++ a :: b :: l' ∧ (g.vert a).metal = w.metal ∧ (g.vert b).metal = w'.metal
      ∧ (g.vert a).x = w.x1 ∧ (g.vert a).y = w.y1
  straight : ∀ w ∈ W, Straight r w
  cover : ∀ n ∈ p, ∃ w ∈ W, On w (g.vert n).metal (g.vert n).x (g.vert n).y

/-- A grown wire: same layer, same direction, and all that was on it still is. -/
def Grown (r : Rules) (w w' : Wire) : Prop := w'.metal = w.metal ∧ Straight r w' ∧ ∀ x y, On w w.metal x y → On w' w.metal x y

/-- The place of a node on its track. -/
def pos (g : Grid) (r : Rules) (v : Nat) : Int := if r.horizontal (g.vert v).metal then (g.vert v).x else (g.vert v).y

/-- The track of a node. -/
def line (g : Grid) (r : Rules) (v : Nat) : Int := if r.horizontal (g.vert v).metal then (g.vert v).y else (g.vert v).x

/-- The tracks as the constructor of the grid makes them (`Grid.cpp` 3262-3420): later nodes of a track have larger places. If two nodes
of a layer on different tracks have the same place, then between them in the list there is a node which is at least a shortest wire away
from the one, or neither on its track nor at its place, and likewise for the other. So it is if each track is at least as long as the
shortest wire of its layer. -/
structure Tracks (g : Grid) (r : Rules) : Prop where
  order : ∀ v w, v < w → w < g.size → (g.vert v).metal = (g.vert w).metal → line g r v = line g r w → pos g r v < pos g r w
  longUp : ∀ v w, v < w → w < g.size → (g.vert v).metal = (g.vert w).metal → pos g r v = pos g r w →
    ∃ u, v < u ∧ u < w ∧ (g.vert u).metal = (g.vert v).metal
      ∧ (r.minL (g.vert v).metal ≤ |pos g r u - pos g r v| ∨ (pos g r u ≠ pos g r v ∧ line g r u ≠ line g r v))
  longDown : ∀ v w, v < w → w < g.size → (g.vert v).metal = (g.vert w).metal → pos g r v = pos g r w →
    ∃ u, v < u ∧ u < w ∧ (g.vert u).metal = (g.vert w).metal
      ∧ (r.minL (g.vert w).metal ≤ |pos g r u - pos g r w| ∨ (pos g r u ≠ pos g r w ∧ line g r u ≠ line g r w))

/-! ## Proofs: cutting the path -/

/-- The stays on a layer. -/
def runs (g : Grid) : List Nat → List (List Nat)
  | [] => []
  | n :: l =>
    match runs g l with
    | [] => [[n]]
    | t :: ts => if (g.vert n).metal = (g.vert (t.headD n)).metal then (n :: t) :: ts else [n] :: t :: ts

theorem runs_flat (g : Grid) : ∀ p : List Nat, (runs g p).flatten = p
  | [] => rfl
  | n :: l => by
    have ih := runs_flat g l
    unfold runs
    cases h : runs g l with
    | nil => rw [h] at ih; simp at ih; simp [← ih]
    | cons t ts =>
      rw [h] at ih
      simp only
      by_cases hm : (g.vert n).metal = (g.vert (t.headD n)).metal
      · rw [if_pos hm]; simp at ih; simp [← ih]
      · rw [if_neg hm]; simp at ih; simp [← ih]

theorem runs_ne (g : Grid) : ∀ p : List Nat, ∀ t ∈ runs g p, t ≠ []
  | [] => by simp [runs]
  | n :: l => by
    have ih := runs_ne g l
    unfold runs
    cases h : runs g l with
    | nil => simp
    | cons t ts =>
      rw [h] at ih
      simp only
      by_cases hm : (g.vert n).metal = (g.vert (t.headD n)).metal
      · rw [if_pos hm]
        intro u hu
        rcases List.mem_cons.1 hu with hu | hu
        · simp [hu]
        · exact ih u (List.mem_cons_of_mem _ hu)
      · rw [if_neg hm]
        intro u hu
        rcases List.mem_cons.1 hu with hu | hu
        · simp [hu]
        · exact ih u hu

/-- The first and the last node of a stay. -/
def hd (t : List Nat) : Nat := t.headD 0
def lst (t : List Nat) : Nat := t.getLastD 0

theorem headD_eq {t : List Nat} (h : t ≠ []) (n : Nat) : t.headD n = hd t := by
  cases t with
  | nil => exact absurd rfl h
  | cons a t => rfl

theorem runs_metal (g : Grid) : ∀ p : List Nat, ∀ t ∈ runs g p, ∀ n ∈ t, (g.vert n).metal = (g.vert (hd t)).metal
  | [] => by simp [runs]
  | n :: l => by
    have ih := runs_metal g l
    have hne := runs_ne g l
    unfold runs
    cases h : runs g l with
    | nil => simp [hd]
    | cons t ts =>
      rw [h] at ih hne
      simp only
      by_cases hm : (g.vert n).metal = (g.vert (t.headD n)).metal
      · rw [if_pos hm]
        rw [headD_eq (hne t List.mem_cons_self)] at hm
        intro u hu
        rcases List.mem_cons.1 hu with hu | hu
        · intro k hk
          rw [hu] at hk ⊢
          rcases List.mem_cons.1 hk with hk | hk
          · rw [hk]; rfl
          · show _ = (g.vert n).metal
            rw [hm]
            exact ih t List.mem_cons_self k hk
        · exact ih u (List.mem_cons_of_mem _ hu)
      · rw [if_neg hm]
        intro u hu
        rcases List.mem_cons.1 hu with hu | hu
        · rw [hu]; simp [hd]
        · exact ih u hu

theorem runs_change (g : Grid) : ∀ p : List Nat, (runs g p).IsChain (fun t u => (g.vert (hd t)).metal ≠ (g.vert (hd u)).metal)
  | [] => by simp [runs]
  | n :: l => by
    have ih := runs_change g l
    have hne := runs_ne g l
    unfold runs
    cases h : runs g l with
    | nil => simp
    | cons t ts =>
      rw [h] at ih hne
      simp only
      have hh := headD_eq (hne t List.mem_cons_self) n
      by_cases hm : (g.vert n).metal = (g.vert (t.headD n)).metal
      · rw [if_pos hm]
        rw [hh] at hm
        cases ts with
        | nil => simp
        | cons u us =>
          rw [List.isChain_cons_cons] at ih ⊢
          refine ⟨?_, ih.2⟩
          show (g.vert n).metal ≠ _
          rw [hm]
          exact ih.1
      · rw [if_neg hm]
        rw [hh] at hm
        rw [List.isChain_cons_cons]
        exact ⟨hm, ih⟩

theorem runs_cons (g : Grid) (n : Nat) (l : List Nat) : runs g (n :: l) ≠ [] := by
  unfold runs
  cases h : runs g l with
  | nil => simp
  | cons t ts =>
    simp only
    by_cases hm : (g.vert n).metal = (g.vert (t.headD n)).metal
    · rw [if_pos hm]; simp
    · rw [if_neg hm]; simp

theorem runs_two (g : Grid) (n k : Nat) (l : List Nat) : ∃ t ts, runs g (k :: l) = t :: ts ∧ hd t = k
    ∧ runs g (n :: k :: l) = if (g.vert n).metal = (g.vert k).metal then (n :: t) :: ts else [n] :: t :: ts := by
  have hne := runs_ne g (k :: l)
  have hf := runs_flat g (k :: l)
  cases h : runs g (k :: l) with
  | nil => exact absurd h (runs_cons g k l)
  | cons t ts =>
    rw [h] at hne hf
    have ht : t ≠ [] := hne t List.mem_cons_self
    have hk : hd t = k := by
      cases t with
      | nil => exact absurd rfl ht
      | cons a t => simp at hf; exact hf.1
    refine ⟨t, ts, rfl, hk, ?_⟩
    rw [runs, h]
    simp only
    rw [headD_eq ht n, hk]

theorem lst_cons {n : Nat} {t : List Nat} (h : t ≠ []) : lst (n :: t) = lst t := by
  cases t with
  | nil => exact absurd rfl h
  | cons a t => simp [lst]

/-- The wires are those of the stays. -/
theorem convert_runs (g : Grid) : ∀ (p : List Nat) (st : Option Nat), convert g st p
    = (runs g p).zipIdx.map (fun e => wire g (if e.2 = 0 then st.getD (hd e.1) else hd e.1) (lst e.1))
  | [], st => by simp [convert, runs]
  | [n], st => by simp [convert, runs, hd, lst]
  | n :: k :: l, st => by
    obtain ⟨t, ts, h1, h2, h3⟩ := runs_two g n k l
    have ht : t ≠ [] := runs_ne g (k :: l) t (by rw [h1]; exact List.mem_cons_self)
    have ih := convert_runs g (k :: l)
    rw [h3]
    unfold convert
    simp only
    by_cases hm : (g.vert n).metal = (g.vert k).metal
    · rw [if_neg (by simpa using hm), if_pos hm, ih, h1]
      simp only [List.zipIdx_cons, List.map_cons, ↓reduceIte, Option.getD_some, lst_cons ht, List.cons.injEq]
      refine ⟨by simp [hd], ?_⟩
      apply List.map_congr_left
      intro e he
      have : 0 < e.2 := by
        have := List.le_snd_of_mem_zipIdx he
        omega
      rw [if_neg (by omega), if_neg (by omega)]
    · rw [if_pos hm, if_neg hm, ih, h1]
      have hz : ∀ (L : List (List Nat)), (List.zipIdx L 1).map (fun e => wire g (if e.2 = 0 then st.getD (hd e.1) else hd e.1) (lst e.1))
          = (List.zipIdx L 0).map (fun e => wire g (if e.2 = 0 then (none : Option Nat).getD (hd e.1) else hd e.1) (lst e.1)) := by
        intro L
        apply List.ext_getElem
        · simp
        · intro i h1 h2
          simp
      rw [List.zipIdx_cons (a := [n]), List.map_cons, hz]
      simp [hd, lst]

theorem convert_eq (g : Grid) (p : List Nat) : convert g none p = (runs g p).map (fun t => wire g (hd t) (lst t)) := by
  rw [convert_runs]
  apply List.ext_getElem
  · simp
  · intro i h1 h2
    simp

theorem pairs_some (g : Grid) : ∀ (p : List Nat) (a b : Nat), (g.vert b).metal = (g.vert a).metal →
    pairs g (some (a, b)) p = match runs g (b :: p) with
      | [] => []
      | t :: ts => (a, lst t) :: ts.map (fun t => (hd t, lst t))
  | [], a, b, _ => by simp [pairs, runs, lst]
  | k :: l, a, b, hb => by
    obtain ⟨t, ts, h1, h2, h3⟩ := runs_two g b k l
    have ht : t ≠ [] := runs_ne g (k :: l) t (by rw [h1]; exact List.mem_cons_self)
    rw [h3]
    unfold pairs
    by_cases hm : (g.vert b).metal = (g.vert k).metal
    · rw [if_neg (by rw [← hm, hb]; simp), if_pos hm, pairs_some g l a k (by rw [← hm, hb]), h1]
      simp only [lst_cons ht]
    · rw [if_pos (by rw [← hb]; exact fun e => hm e.symm), if_neg hm, pairs_some g l k k rfl, h1]
      simp [lst, h2]

theorem pairs_eq (g : Grid) (p : List Nat) : pairs g none p = (runs g p).map (fun t => (hd t, lst t)) := by
  cases p with
  | nil => simp [pairs, runs]
  | cons n l =>
    rw [pairs, pairs_some g l n n rfl]
    have hf := runs_flat g (n :: l)
    have hne := runs_ne g (n :: l)
    cases h : runs g (n :: l) with
    | nil => exact absurd h (runs_cons g n l)
    | cons t ts =>
      rw [h] at hf hne
      have ht : t ≠ [] := hne t List.mem_cons_self
      have hk : hd t = n := by
        cases t with
        | nil => exact absurd rfl ht
        | cons a t => simp at hf; exact hf.1
      simp [hk]

theorem labels_eq (g : Grid) (r : Rules) (p : List Nat) :
    labels g r p = (runs g p).zipIdx.map (fun e => labelOf g r (runs g p).length e.2 (hd e.1) (lst e.1)) := by
  unfold labels
  rw [pairs_eq]
  apply List.ext_getElem
  · simp
  · intro i h1 h2
    simp

theorem drawn_eq (g : Grid) (r : Rules) (p : List Nat) : drawn g r p
    = some ((runs g p).zipIdx.map (fun e => extend r (wire g (hd e.1) (lst e.1)) (labelOf g r (runs g p).length e.2 (hd e.1) (lst e.1)))) := by
  unfold drawn
  rw [if_neg (by rw [convert_eq, labels_eq]; simp), convert_eq, labels_eq]
  congr 1
  apply List.ext_getElem
  · simp
  · intro i h1 h2
    simp

/-! ## Proofs: a stay on a layer -/

/-- The next node of the track. -/
def Next (g : Grid) (r : Rules) (a b : Nat) : Prop :=
  b = a + 1 ∧ (g.vert b).metal = (g.vert a).metal ∧ line g r b = line g r a ∧ pos g r a < pos g r b

theorem along_next {g : Grid} {r : Rules} (hs : Sound g r) {a b : Nat} (ha : a < g.size) (h : Along g r a b) :
    Next g r a b ∨ Next g r b a := by
  obtain ⟨h, hm, _⟩ := h
  unfold Next pos line
  rcases h with h | h | h | h
  · obtain ⟨k1, _, k3, k4, k5, k6⟩ := hs.north a b ha h
    left; rw [k3]; simp [k4]; exact ⟨k1, k5, k6⟩
  · obtain ⟨k1, k3, k4, k5, k6⟩ := hs.south a b ha h
    right; rw [k3]; simp [k4]; exact ⟨k1, k5.symm, k6⟩
  · obtain ⟨k1, _, k3, k4, k5, k6⟩ := hs.east a b ha h
    left; rw [k3]; simp [k4]; exact ⟨k1, k5, k6⟩
  · obtain ⟨k1, k3, k4, k5, k6⟩ := hs.west a b ha h
    right; rw [k3]; simp [k4]; exact ⟨k1, k5.symm, k6⟩

theorem one_way {g : Grid} {r : Rules} : ∀ {t : List Nat}, t.IsChain (fun a b => Next g r a b ∨ Next g r b a) → t.Nodup →
    t.IsChain (Next g r) ∨ t.IsChain (fun a b => Next g r b a)
  | [], _, _ => by simp
  | [a], _, _ => by simp
  | [a, b], h, _ => by
    rw [List.isChain_cons_cons] at h
    rcases h.1 with h | h
    · left; simp [h]
    · right; simp [h]
  | a :: b :: c :: t, h, hn => by
    rw [List.isChain_cons_cons] at h
    rw [List.nodup_cons] at hn
    have hac : a ≠ c := fun e => hn.1 (by simp [e])
    rcases one_way h.2 hn.2 with ih | ih
    · left
      rw [List.isChain_cons_cons]
      refine ⟨?_, ih⟩
      rcases h.1 with k | k
      · exact k
      · rw [List.isChain_cons_cons] at ih
        exact absurd (k.1.trans ih.1.1.symm) hac
    · right
      rw [List.isChain_cons_cons]
      refine ⟨?_, ih⟩
      rcases h.1 with k | k
      · rw [List.isChain_cons_cons] at ih
        have e1 := k.1
        have e2 := ih.1.1
        exact absurd (by omega) hac
      · exact k

/-- What a chain upwards is. -/
theorem chain_up {g : Grid} {r : Rules} : ∀ {t : List Nat}, t ≠ [] → t.IsChain (Next g r) →
    hd t ≤ lst t ∧ (∀ m, hd t ≤ m → m ≤ lst t → m ∈ t)
      ∧ (hd t < lst t → pos g r (hd t) < pos g r (lst t))
      ∧ ∀ n ∈ t, line g r n = line g r (hd t) ∧ pos g r (hd t) ≤ pos g r n ∧ pos g r n ≤ pos g r (lst t)
  | [], h, _ => absurd rfl h
  | [a], _, _ => by
    refine ⟨Nat.le_refl _, ?_, ?_, ?_⟩
    · intro m h1 h2
      have h1 : a ≤ m := h1
      have h2 : m ≤ a := h2
      simp; omega
    · intro h
      exact absurd h (by simp [hd, lst])
    · intro n hn
      rw [List.mem_singleton.1 hn]
      exact ⟨rfl, Int.le_refl _, Int.le_refl _⟩
  | a :: b :: t, _, h => by
    rw [List.isChain_cons_cons] at h
    obtain ⟨h1, h2, h3, h4⟩ := chain_up (by simp) h.2
    obtain ⟨n1, n2, n3, n4⟩ := h.1
    rw [lst_cons (by simp)]
    generalize lst (b :: t) = z at *
    have hb : hd (b :: t) = b := rfl
    rw [hb] at h1 h2 h3 h4
    have hbz : pos g r b ≤ pos g r z := by
      obtain ⟨_, _, k⟩ := h4 b List.mem_cons_self
      exact k
    have ha : hd (a :: b :: t) = a := rfl
    rw [ha]
    refine ⟨by omega, ?_, fun _ => by omega, ?_⟩
    · intro m k1 k2
      by_cases e : m = a
      · simp [e]
      · exact List.mem_cons_of_mem _ (h2 m (by omega) k2)
    · intro n hn
      rcases List.mem_cons.1 hn with hn | hn
      · rw [hn]; exact ⟨rfl, by omega, by omega⟩
      · obtain ⟨k1, k2, k3⟩ := h4 n hn
        exact ⟨by rw [k1, n3], by omega, k3⟩

/-- What a chain downwards is. -/
theorem chain_down {g : Grid} {r : Rules} : ∀ {t : List Nat}, t ≠ [] → t.IsChain (fun a b => Next g r b a) →
    lst t ≤ hd t ∧ (∀ m, lst t ≤ m → m ≤ hd t → m ∈ t)
      ∧ (lst t < hd t → pos g r (lst t) < pos g r (hd t))
      ∧ ∀ n ∈ t, line g r n = line g r (hd t) ∧ pos g r (lst t) ≤ pos g r n ∧ pos g r n ≤ pos g r (hd t)
  | [], h, _ => absurd rfl h
  | [a], _, _ => by
    refine ⟨Nat.le_refl _, ?_, ?_, ?_⟩
    · intro m h1 h2
      have h1 : a ≤ m := h1
      have h2 : m ≤ a := h2
      simp; omega
    · intro h
      exact absurd h (by simp [hd, lst])
    · intro n hn
      rw [List.mem_singleton.1 hn]
      exact ⟨rfl, Int.le_refl _, Int.le_refl _⟩
  | a :: b :: t, _, h => by
    rw [List.isChain_cons_cons] at h
    obtain ⟨h1, h2, h3, h4⟩ := chain_down (by simp) h.2
    obtain ⟨n1, n2, n3, n4⟩ := h.1
    rw [lst_cons (by simp)]
    generalize lst (b :: t) = z at *
    have hb : hd (b :: t) = b := rfl
    rw [hb] at h1 h2 h3 h4
    have hbz : pos g r z ≤ pos g r b := by
      obtain ⟨_, k, _⟩ := h4 b List.mem_cons_self
      exact k
    have ha : hd (a :: b :: t) = a := rfl
    rw [ha]
    refine ⟨by omega, ?_, fun _ => by omega, ?_⟩
    · intro m k1 k2
      by_cases e : m = a
      · simp [e]
      · exact List.mem_cons_of_mem _ (h2 m k1 (by omega))
    · intro n hn
      rcases List.mem_cons.1 hn with hn | hn
      · rw [hn]; exact ⟨rfl, by omega, by omega⟩
      · obtain ⟨k1, k2, k3⟩ := h4 n hn
        exact ⟨by rw [k1, n3], k2, by omega⟩

theorem lst_mem {t : List Nat} (h : t ≠ []) : lst t ∈ t := by
  unfold lst
  rw [List.getLastD_eq_getLast?, List.getLast?_eq_some_getLast h]
  exact List.getLast_mem h

theorem hd_mem {t : List Nat} (h : t ≠ []) : hd t ∈ t := by
  cases t with
  | nil => exact absurd rfl h
  | cons a t => exact List.mem_cons_self

/-- A stay of a path on a layer. -/
structure Stay (g : Grid) (r : Rules) (t : List Nat) : Prop where
  ne : t ≠ []
  metal : ∀ n ∈ t, (g.vert n).metal = (g.vert (hd t)).metal
  line : ∀ n ∈ t, line g r n = line g r (hd t)
  between : ∀ n ∈ t, min (pos g r (hd t)) (pos g r (lst t)) ≤ pos g r n ∧ pos g r n ≤ max (pos g r (hd t)) (pos g r (lst t))
  whole : ∀ m, min (hd t) (lst t) ≤ m → m ≤ max (hd t) (lst t) → m ∈ t
  up : hd t < lst t → pos g r (hd t) < pos g r (lst t)
  down : lst t < hd t → pos g r (lst t) < pos g r (hd t)

theorem split_of_mem {g : Grid} {p t : List Nat} (h : t ∈ runs g p) : ∃ l l', p = l ++ t ++ l' := by
  obtain ⟨A, B, e⟩ := List.append_of_mem h
  refine ⟨A.flatten, B.flatten, ?_⟩
  have := runs_flat g p
  rw [e] at this
  rw [← this]
  simp

theorem isChain_iff_split {R : Nat → Nat → Prop} : ∀ {t : List Nat}, (∀ a b l l', t = l ++ a :: b :: l' → R a b) → t.IsChain R
  | [], _ => by simp
  | [a], _ => by simp
  | a :: b :: t, h => by
    rw [List.isChain_cons_cons]
    refine ⟨h a b [] t rfl, isChain_iff_split ?_⟩
    intro c d l l' e
    exact h c d (a :: l) l' (by rw [e]; rfl)

theorem stay_of_run {g : Grid} {r : Rules} {src dests p : List Nat} (hs : Sound g r) (hp : Connects g r src dests p) {t : List Nat}
    (h : t ∈ runs g p) : Stay g r t := by
  have hne := runs_ne g p t h
  have hm := runs_metal g p t h
  obtain ⟨l, l', e⟩ := split_of_mem h
  have hnd : t.Nodup := by
    have := hp.nodup
    rw [e, List.append_assoc] at this
    exact (List.nodup_append.1 (List.nodup_append.1 this).2.1).1
  have hch : t.IsChain (fun a b => Next g r a b ∨ Next g r b a) := by
    apply isChain_iff_split
    intro a b k k' e'
    have hst := hp.steps a b (l ++ k) (k' ++ l') (by rw [e, e']; simp)
    have ha : a ∈ t := by rw [e']; simp
    have hb : b ∈ t := by rw [e']; simp
    have hab : (g.vert a).metal = (g.vert b).metal := (hm a ha).trans (hm b hb).symm
    rcases hst.2.2 with k1 | k1 | k1
    · exact along_next hs (hp.nodes a (by rw [e, e']; simp)) k1
    · have := k1.2.1; omega
    · have := k1.2.1; omega
  rcases one_way hch hnd with k | k
  · obtain ⟨h1, h2, h3, h4⟩ := chain_up hne k
    exact ⟨hne, hm, fun n hn => (h4 n hn).1,
      fun n hn => ⟨le_trans (min_le_left _ _) (h4 n hn).2.1, le_trans (h4 n hn).2.2 (le_max_right _ _)⟩,
      fun m k1 k2 => h2 m (by rw [min_eq_left h1] at k1; exact k1) (by rw [max_eq_right h1] at k2; exact k2), h3, fun k1 => by omega⟩
  · obtain ⟨h1, h2, h3, h4⟩ := chain_down hne k
    exact ⟨hne, hm, fun n hn => (h4 n hn).1,
      fun n hn => ⟨le_trans (min_le_right _ _) (h4 n hn).2.1, le_trans (h4 n hn).2.2 (le_max_left _ _)⟩,
      fun m k1 k2 => h2 m (by rw [min_eq_right h1] at k1; exact k1) (by rw [max_eq_left h1] at k2; exact k2), fun k1 => by omega, h3⟩

/-! ## Proofs: the wires -/

theorem wire_straight {g : Grid} {r : Rules} {t : List Nat} (h : Stay g r t) : Straight r (wire g (hd t) (lst t)) := by
  have h1 := h.metal _ (lst_mem h.ne)
  have h2 := h.line _ (lst_mem h.ne)
  unfold Straight wire
  unfold Wires.line at h2
  rw [h1] at h2
  simp only
  by_cases k : r.horizontal (g.vert (hd t)).metal = true
  · rw [if_pos k] at h2 ⊢
    rw [if_pos k] at h2
    exact h2.symm
  · rw [if_neg k] at h2 ⊢
    rw [if_neg k] at h2
    exact h2.symm

theorem wire_on {g : Grid} {r : Rules} {t : List Nat} (h : Stay g r t) {n : Nat} (hn : n ∈ t) :
    On (wire g (hd t) (lst t)) (g.vert n).metal (g.vert n).x (g.vert n).y := by
  have h1 := h.metal _ (lst_mem h.ne)
  have h2 := h.line _ (lst_mem h.ne)
  have h3 := h.metal _ hn
  have h4 := h.line _ hn
  have h5 := h.between _ hn
  unfold On wire
  unfold Wires.line at h2 h4
  unfold pos at h5
  rw [h1] at h2 h5
  rw [h3] at h4 h5
  refine ⟨h3.symm, ?_⟩
  simp only
  by_cases k : r.horizontal (g.vert (hd t)).metal = true
  · simp only [k, if_true] at h2 h4 h5
    exact ⟨h5.1, h5.2, by rw [h4]; exact min_le_left _ _, by rw [h4]; exact le_max_left _ _⟩
  · simp only [k, Bool.false_eq_true, if_false] at h2 h4 h5
    exact ⟨by rw [h4]; exact min_le_left _ _, by rw [h4]; exact le_max_left _ _, h5.1, h5.2⟩

theorem lst_split {t : List Nat} (h : t ≠ []) : ∃ l, t = l ++ [lst t] := by
  refine ⟨t.dropLast, ?_⟩
  unfold lst
  rw [List.getLastD_eq_getLast?, List.getLast?_eq_some_getLast h]
  exact (List.dropLast_append_getLast h).symm

theorem hd_split {t : List Nat} (h : t ≠ []) : ∃ l, t = hd t :: l := by
  cases t with
  | nil => exact absurd rfl h
  | cons a t => exact ⟨t, rfl⟩

theorem map_split {α β : Type} {f : α → β} {l : List α} {A : List β} {x y : β} {B : List β} (h : l.map f = A ++ x :: y :: B) :
    ∃ A' a b B', l = A' ++ a :: b :: B' ∧ x = f a ∧ y = f b ∧ A'.map f = A ∧ B'.map f = B := by
  obtain ⟨A', l1, e1, e2, e3⟩ := List.map_eq_append_iff.1 h
  obtain ⟨a, l2, e4, e5, e6⟩ := List.map_eq_cons_iff.1 e3
  obtain ⟨b, B', e7, e8, e9⟩ := List.map_eq_cons_iff.1 e6
  exact ⟨A', a, b, B', by rw [e1, e4, e7], e5.symm, e8.symm, e2, e9⟩

/-- C113: the wires of a reported path realise it. -/
theorem C113_wires {g : Grid} {r : Rules} {src dests : List Nat} {sym : List Wire} {cost cost2 : Nat → Rat} {back : Nat → Option Nat}
    {fuel : Nat} {p : List Nat} (hs : Sound g r) (hsrc : ∀ s ∈ src, s < g.size)
    (h : astar g r src dests sym cost cost2 back fuel = .path p) : Joined g r p (convert g none p) := by
  have hp := C112_path hs hsrc h
  have hf := runs_flat g p
  have hne := runs_ne g p
  rw [convert_eq]
  obtain ⟨s, l, e, _⟩ := hp.first
  have hR : runs g p ≠ [] := by rw [e]; exact runs_cons g s l
  constructor
  · obtain ⟨t, ts, e1⟩ := List.exists_cons_of_ne_nil hR
    rw [e1] at hf hne
    obtain ⟨l', e2⟩ := hd_split (hne t List.mem_cons_self)
    refine ⟨hd t, l' ++ ts.flatten, wire g (hd t) (lst t), ts.map (fun t => wire g (hd t) (lst t)), ?_, by rw [e1]; rfl, rfl, rfl, rfl⟩
    rw [← hf, List.flatten_cons]
    conv => lhs; rw [e2]
    rfl
  · have e1 := (List.dropLast_append_getLast hR).symm
    generalize (runs g p).dropLast = ts at e1
    generalize (runs g p).getLast hR = t at e1
    have hst := stay_of_run hs hp (t := t) (by rw [e1]; simp)
    rw [e1] at hf hne
    obtain ⟨l', e2⟩ := lst_split (hne t (by simp))
    refine ⟨lst t, ts.flatten ++ l', wire g (hd t) (lst t), ts.map (fun t => wire g (hd t) (lst t)), ?_, by rw [e1]; simp, ?_, rfl, rfl⟩
    · rw [← hf, List.flatten_append, List.append_assoc]
      conv => lhs; rw [e2]
      simp
    · exact (hst.metal _ (lst_mem hst.ne)).symm
  · intro w w' V V' e1
    obtain ⟨A, t, u, B, e2, e3, e4, _, _⟩ := map_split e1
    have htm : t ∈ runs g p := by rw [e2]; simp
    have hum : u ∈ runs g p := by rw [e2]; simp
    have hst := stay_of_run hs hp htm
    have hsu := stay_of_run hs hp hum
    obtain ⟨l1, e5⟩ := lst_split hst.ne
    obtain ⟨l2, e6⟩ := hd_split hsu.ne
    have e7 : p = (A.flatten ++ l1) ++ lst t :: hd u :: (l2 ++ B.flatten) := by
      rw [← hf, e2]
      simp only [List.flatten_append, List.flatten_cons]
      conv => lhs; rw [e5, e6]
      simp
    have hstep := hp.steps _ _ _ _ e7
    have hmt := hst.metal _ (lst_mem hst.ne)
    have hch : (g.vert (hd t)).metal ≠ (g.vert (hd u)).metal := by
      have := runs_change g p
      rw [e2] at this
      have := (List.isChain_append.1 this).2.1
      rw [List.isChain_cons_cons] at this
      exact this.1
    rw [e3, e4]
    have hfin : ((g.vert (hd u)).metal = (g.vert (hd t)).metal + 1 ∨ (g.vert (hd t)).metal = (g.vert (hd u)).metal + 1)
        ∧ (g.vert (lst t)).x = (g.vert (hd u)).x ∧ (g.vert (lst t)).y = (g.vert (hd u)).y := by
      rcases hstep.2.2 with k | k | k
      · exact absurd (hmt.symm.trans k.2.1) hch
      · obtain ⟨_, k1, k2, k3, _⟩ := k
        exact ⟨Or.inl (by rw [← hmt]; exact k1), k2.symm, k3.symm⟩
      · obtain ⟨_, k1, k2, k3, _⟩ := k
        exact ⟨Or.inr (by rw [← hmt]; exact k1), k2, k3⟩
    exact ⟨hfin.1, hfin.2.1, hfin.2.2, lst t, hd u, _, _, e7, hmt, rfl, rfl, rfl⟩
  · intro w hw
    obtain ⟨t, ht, e1⟩ := List.mem_map.1 hw
    rw [← e1]
    exact wire_straight (stay_of_run hs hp ht)
  · intro n hn
    rw [← hf] at hn
    obtain ⟨t, ht, hn⟩ := List.mem_flatten.1 hn
    exact ⟨_, List.mem_map.2 ⟨t, ht, rfl⟩, wire_on (stay_of_run hs hp ht) hn⟩

/-! ## Proofs: growing -/

/-- How far a wire of the given length grows, down and up. -/
def stretch (need len : Int) (label : Nat) : Int × Int :=
  if len < need then
    (if label = 1 then (Int.tdiv (need - len) 2, Int.tdiv (need - len) 2)
     else if label = 2 then (0, need - len) else if label = 3 then (need - len, 0) else (0, 0))
  else (0, 0)

theorem half_bounds {d : Int} (h : 0 < d) : 0 ≤ Int.tdiv d 2 ∧ d - 1 ≤ 2 * Int.tdiv d 2 ∧ 2 * Int.tdiv d 2 ≤ d := by
  rw [Int.tdiv_eq_ediv_of_nonneg (by omega)]
  omega

theorem stretch_nonneg (need len : Int) (label : Nat) : 0 ≤ (stretch need len label).1 ∧ 0 ≤ (stretch need len label).2 := by
  unfold stretch
  by_cases h : len < need
  · rw [if_pos h]
    have := (half_bounds (d := need - len) (by omega)).1
    split_ifs <;> constructor <;> simp only <;> omega
  · rw [if_neg h]; simp

/-- What growing does. -/
theorem extend_spec {r : Rules} (w : Wire) (label : Nat) :
    (extend r w label).metal = w.metal
    ∧ (r.horizontal w.metal = true → (extend r w label).y0 = w.y0 ∧ (extend r w label).y1 = w.y1
      ∧ min (extend r w label).x0 (extend r w label).x1 = min w.x0 w.x1 - (stretch (r.minL w.metal) (length w) label).1
      ∧ max (extend r w label).x0 (extend r w label).x1 = max w.x0 w.x1 + (stretch (r.minL w.metal) (length w) label).2)
    ∧ (r.horizontal w.metal = false → (extend r w label).x0 = w.x0 ∧ (extend r w label).x1 = w.x1
      ∧ min (extend r w label).y0 (extend r w label).y1 = min w.y0 w.y1 - (stretch (r.minL w.metal) (length w) label).1
      ∧ max (extend r w label).y0 (extend r w label).y1 = max w.y0 w.y1 + (stretch (r.minL w.metal) (length w) label).2) := by
  have hn := stretch_nonneg (r.minL w.metal) (length w) label
  unfold extend
  unfold stretch at hn ⊢
  by_cases h0 : label = 0
  · rw [if_pos h0]
    simp [h0]
  rw [if_neg h0]
  by_cases hl : length w < r.minL w.metal
  · have hd := half_bounds (d := r.minL w.metal - length w) (by omega)
    generalize r.minL w.metal - length w = d at *
    generalize hz : Int.tdiv d 2 = z at *
    by_cases h1 : label = 1
    · simp only [hl, h1, and_self, if_true] at hn ⊢
      by_cases k : r.horizontal w.metal = true
      · simp only [k, if_true, extX]
        split_ifs <;> simp <;> omega
      · simp only [k, Bool.false_eq_true, if_false, extY]
        split_ifs <;> simp <;> omega
    · by_cases h2 : label = 2
      · simp only [hl, h2] at hn ⊢
        by_cases k : r.horizontal w.metal = true
        · simp only [k, if_true, extXpn]
          simp only [show (2 : Nat) ≠ 1 by decide, and_false, if_false, and_self, if_true] at hn ⊢
          split_ifs <;> simp <;> omega
        · simp only [k, Bool.false_eq_true, if_false, extYpn]
          simp only [show (2 : Nat) ≠ 1 by decide, and_false, if_false, and_self, if_true] at hn ⊢
          split_ifs <;> simp <;> omega
      · by_cases h3 : label = 3
        · simp only [hl, h3] at hn ⊢
          by_cases k : r.horizontal w.metal = true
          · simp only [k, if_true, extXpn]
            simp only [show (3 : Nat) ≠ 1 by decide, show (3 : Nat) ≠ 2 by decide, and_false, if_false, and_self, if_true,
              Bool.false_eq_true] at hn ⊢
            split_ifs <;> simp <;> omega
          · simp only [k, Bool.false_eq_true, if_false, extYpn]
            simp only [show (3 : Nat) ≠ 1 by decide, show (3 : Nat) ≠ 2 by decide, and_false, if_false, and_self, if_true] at hn ⊢
            split_ifs <;> simp <;> omega
        · simp [h1, h2, h3]
  · simp [hl]

theorem extend_grown {r : Rules} {w : Wire} (h : Straight r w) (label : Nat) : Grown r w (extend r w label) := by
  obtain ⟨h1, h2, h3⟩ := extend_spec (r := r) w label
  have hn := stretch_nonneg (r.minL w.metal) (length w) label
  unfold Grown
  refine ⟨h1, ?_, ?_⟩
  · unfold Straight at h ⊢
    rw [h1]
    by_cases k : r.horizontal w.metal = true
    · rw [if_pos k] at h ⊢
      obtain ⟨e1, e2, _⟩ := h2 k
      rw [e1, e2, h]
    · rw [if_neg k] at h ⊢
      obtain ⟨e1, e2, _⟩ := h3 (by simpa using k)
      rw [e1, e2, h]
  · intro x y hxy
    unfold On at hxy ⊢
    obtain ⟨_, k1, k2, k3, k4⟩ := hxy
    refine ⟨h1, ?_⟩
    by_cases k : r.horizontal w.metal = true
    · obtain ⟨e1, e2, e3, e4⟩ := h2 k
      rw [e1, e2, e3, e4]
      exact ⟨by omega, by omega, k3, k4⟩
    · obtain ⟨e1, e2, e3, e4⟩ := h3 (by simpa using k)
      rw [e1, e2, e3, e4]
      exact ⟨k1, k2, by omega, by omega⟩

/-- C113: growing never fails, and it leaves the wires on their layers and on all the points they were on. -/
theorem C113_drawn {g : Grid} {r : Rules} {src dests : List Nat} {sym : List Wire} {cost cost2 : Nat → Rat} {back : Nat → Option Nat}
    {fuel : Nat} {p : List Nat} (hs : Sound g r) (hsrc : ∀ s ∈ src, s < g.size)
    (h : astar g r src dests sym cost cost2 back fuel = .path p) :
    ∃ W, drawn g r p = some W ∧ List.Forall₂ (Grown r) (convert g none p) W := by
  have hj := C113_wires hs hsrc h
  have hlen : (convert g none p).length = (labels g r p).length := by rw [convert_eq, labels_eq]; simp
  refine ⟨List.zipWith (extend r) (convert g none p) (labels g r p), by unfold drawn; rw [if_neg (by simpa using hlen)], ?_⟩
  have hst := hj.straight
  clear hj
  generalize convert g none p = W at *
  generalize labels g r p = L at *
  clear h
  induction W generalizing L with
  | nil => simp
  | cons w W ih =>
    cases L with
    | nil => simp at hlen
    | cons x L =>
      rw [List.zipWith_cons_cons]
      exact List.Forall₂.cons (extend_grown (hst w List.mem_cons_self) x)
        (ih (fun u hu => hst u (List.mem_cons_of_mem _ hu)) L (by simpa using hlen))

/-! ## Proofs: the shortest length -/

theorem dist_comm (g : Grid) (a b : Nat) : dist g a b = dist g b a := by
  unfold dist
  rw [abs_sub_comm, abs_sub_comm (g.vert a).y]

theorem traceSame_run {link : Nat → Option Nat} {g : Grid} {start q : Nat} {s : List Nat} : ∀ {t : List Nat} {d f : Nat},
    Linked link (d :: (t ++ q :: s)) → start ∉ t → start ≠ q → (∀ n ∈ t, (g.vert n).metal = (g.vert d).metal) →
    (g.vert q).metal ≠ (g.vert d).metal → (∀ n ∈ t, n < g.size) → q < g.size → t.length < f →
    traceSame link g start f d = some (lst (d :: t))
  | [], d, f, hl, _, hq, _, hm, _, hz, hf => by
    obtain ⟨f, rfl⟩ : ∃ k, f = k + 1 := ⟨f - 1, by simp at hf; omega⟩
    have h1 : link d = some q := hl.1
    unfold traceSame
    simp only [h1]
    rw [if_neg (by omega), if_neg (fun e => hq e.symm), if_neg hm]
    rfl
  | n :: t, d, f, hl, hs, hq, hall, hm, hall', hz, hf => by
    obtain ⟨f, rfl⟩ : ∃ k, f = k + 1 := ⟨f - 1, by simp at hf; omega⟩
    have h1 : link d = some n := hl.1
    have hn := hall n List.mem_cons_self
    unfold traceSame
    simp only [h1]
    rw [if_neg (by have := hall' n List.mem_cons_self; omega), if_neg (fun e => hs (by simp [e])), if_pos hn, lst_cons (by simp)]
    exact traceSame_run hl.2 (fun k => hs (List.mem_cons_of_mem _ k)) hq
      (fun k hk => (hall k (List.mem_cons_of_mem _ hk)).trans hn.symm) (by rw [hn]; exact hm)
      (fun k hk => hall' k (List.mem_cons_of_mem _ hk)) hz (by simp at hf; omega)

theorem linked_drop {link : Nat → Option Nat} : ∀ {l : List Nat} {a : Nat} {s : List Nat}, Linked link (l ++ a :: s) → Linked link (a :: s)
  | [], _, _, h => h
  | [_], _, _, h => h.2
  | _ :: b :: l, _, _, h => linked_drop (l := b :: l) h.2

/-- A stay on a layer in the middle of a path: the vias at its ends have room if they go to the same layer, and the stay is long enough or can grow. -/
theorem span_ok {g : Grid} {r : Rules} {src dests p : List Nat} (hp : Connects g r src dests p) (hc : Checked g r src p)
    {pre t post : List Nat} {q n : Nat} (e6 : p = pre ++ q :: (t ++ n :: post)) (htne : t ≠ [])
    (hm : ∀ k ∈ t, (g.vert k).metal = (g.vert (hd t)).metal) (hut : (g.vert q).metal ≠ (g.vert (hd t)).metal)
    (htv : (g.vert (hd t)).metal ≠ (g.vert n).metal) :
    viaGap g r (label (fun _ => none) p) (hd t) (lst t) n ≤ dist g (hd t) (lst t) ∧ label (fun _ => none) p (hd t) = some q
    ∧ (r.minL (g.vert (hd t)).metal ≤ dist g (hd t) (lst t)
      ∨ extBoth g (hd t) (lst t) (dist g (hd t) (lst t)) (r.minL (g.vert (hd t)).metal) = true
      ∨ extHead g (hd t) (lst t) (dist g (hd t) (lst t)) (r.minL (g.vert (hd t)).metal) = true
      ∨ extTail g (hd t) (lst t) (dist g (hd t) (lst t)) (r.minL (g.vert (hd t)).metal) = true) := by
  obtain ⟨lt, e5⟩ := lst_split htne
  have hlt : (g.vert (lst t)).metal = (g.vert (hd t)).metal := hm _ (lst_mem htne)
  have e7 : p = (pre ++ q :: lt) ++ lst t :: n :: post := by
    rw [e6]
    conv => lhs; rw [e5]
    simp
  have hk := hc _ _ _ _ e7
  have hnd := hp.nodup
  obtain ⟨s0, l0, e8, _, hs0⟩ := hp.first
  -- the links of the path
  have hlink : Linked (label (fun _ => none) p) p.reverse := by
    rw [e8] at hnd ⊢
    exact label_linked hnd
  have e9 : p.reverse = (post.reverse ++ [n]) ++ lst t :: (lt.reverse ++ q :: pre.reverse) := by
    rw [e7]; simp
  rw [e9] at hlink
  have hlink := linked_drop hlink
  have hall : ∀ n ∈ p, n < g.size := hp.nodes
  have hnd' : (lst t :: (lt.reverse ++ q :: pre.reverse)).Nodup := by
    have := List.nodup_reverse.2 hnd
    rw [e9] at this
    exact (List.nodup_append.1 this).2.1
  rw [List.nodup_cons] at hnd'
  have hlast : lst (lst t :: lt.reverse) = hd t := by
    have : lst t :: lt.reverse = t.reverse := by
      conv => rhs; rw [e5]
      simp
    rw [this]
    obtain ⟨x, hx⟩ := hd_split htne
    conv => lhs; rw [hx]
    simp [lst]
  have htr : traceSame (label (fun _ => none) p) g (lst t) (g.size + 1) (lst t) = some (hd t) := by
    rw [traceSame_run hlink (fun k => hnd'.1 (by simp at k; simp [k])) (fun k => hnd'.1 (by simp [k])) ?_ ?_ ?_ ?_ ?_, hlast]
    · intro k hn
      rw [hlt]
      refine hm k ?_
      rw [e5]
      simp at hn
      simp [hn]
    · rw [hlt]; exact hut
    · intro n hn
      apply hall
      rw [e7]
      simp at hn
      simp [hn]
    · apply hall; rw [e7]; simp
    · rw [List.length_reverse]
      have : lt.length ≤ g.size := by
        refine short (n := g.size) ?_ ?_
        · have := hnd'.2
          exact List.nodup_reverse.1 (List.nodup_append.1 this).1
        · intro w hw
          apply hall
          rw [e7]
          simp [hw]
      omega
  have hsrc : hd t ∉ src := by
    apply hs0
    obtain ⟨x, hx⟩ := hd_split htne
    have : s0 :: l0 = pre ++ q :: (hd t :: (x ++ n :: post)) := by
      rw [← e8, e6]
      conv => lhs; rw [hx]
      simp
    cases pre with
    | nil =>
      rw [List.nil_append] at this
      rw [(List.cons.inj this).2]; simp
    | cons y pre =>
      rw [List.cons_append] at this
      rw [(List.cons.inj this).2]; simp
  unfold parallel at hk
  rw [if_pos (by rw [hlt]; exact htv)] at hk
  have hpr : extPrime g r src (label (fun _ => none) p) (lst t) (n) = some true := by
    cases hx : extPrime g r src (label (fun _ => none) p) (lst t) (n) with
    | none => rw [hx] at hk; simp at hk
    | some b =>
      cases b with
      | true => rfl
      | false => rw [hx] at hk; simp at hk
  unfold extPrime at hpr
  simp only [htr] at hpr
  rw [if_neg hsrc, dist_comm, hlt] at hpr
  have hpre : label (fun _ => none) p (hd t) = some q := by
    obtain ⟨x, hx⟩ := hd_split htne
    have hl : Linked (label (fun _ => none) p) p.reverse := by
      rw [e8] at hnd ⊢
      exact label_linked hnd
    have e10 : p.reverse = (post.reverse ++ n :: x.reverse) ++ hd t :: q :: pre.reverse := by
      rw [e6]
      conv => lhs; rw [hx]
      simp
    rw [e10] at hl
    exact linked_consec hl
  have hgap : viaGap g r (label (fun _ => none) p) (hd t) (lst t) n ≤ dist g (hd t) (lst t) := by
    by_cases hgap : viaGap g r (label (fun _ => none) p) (hd t) (lst t) n ≤ dist g (hd t) (lst t)
    · exact hgap
    · rw [if_neg (fun k => hgap k.2)] at hpr
      simp [hgap] at hpr
  refine ⟨hgap, hpre, ?_⟩
  by_cases hlen : r.minL (g.vert (hd t)).metal ≤ dist g (hd t) (lst t)
  · exact Or.inl hlen
  · right
    rw [if_pos ⟨by omega, hgap⟩] at hpr
    simp only [Option.some.injEq, Bool.or_eq_true] at hpr
    rcases hpr with (k | k) | k
    · exact Or.inl k
    · exact Or.inr (Or.inl k)
    · exact Or.inr (Or.inr k)

/-- A stay between two others is long enough or can grow. -/
theorem stay_ok {g : Grid} {r : Rules} {src dests p : List Nat} (hp : Connects g r src dests p) (hc : Checked g r src p)
    {A B : List (List Nat)} {t : List Nat} (e : runs g p = A ++ t :: B) (hA : A ≠ []) (hB : B ≠ []) :
    r.minL (g.vert (hd t)).metal ≤ dist g (hd t) (lst t)
      ∨ extBoth g (hd t) (lst t) (dist g (hd t) (lst t)) (r.minL (g.vert (hd t)).metal) = true
      ∨ extHead g (hd t) (lst t) (dist g (hd t) (lst t)) (r.minL (g.vert (hd t)).metal) = true
      ∨ extTail g (hd t) (lst t) (dist g (hd t) (lst t)) (r.minL (g.vert (hd t)).metal) = true := by
  have hf := runs_flat g p
  have hne := runs_ne g p
  have hm := runs_metal g p
  have hch := runs_change g p
  have e1 := (List.dropLast_append_getLast hA).symm
  generalize A.dropLast = A' at e1
  generalize A.getLast hA = u at e1
  obtain ⟨v, B', e2⟩ := List.exists_cons_of_ne_nil hB
  rw [e, e1, e2] at hf hne hm hch
  have htne := hne t (by simp)
  obtain ⟨lu, e3⟩ := lst_split (hne u (by simp))
  obtain ⟨lv, e4⟩ := hd_split (hne v (by simp))
  have hut : (g.vert (hd u)).metal ≠ (g.vert (hd t)).metal := by
    rw [List.append_assoc] at hch
    have := (List.isChain_append.1 hch).2.1
    simp only [List.singleton_append, List.isChain_cons_cons] at this
    exact this.1
  have htv : (g.vert (hd t)).metal ≠ (g.vert (hd v)).metal := by
    rw [List.append_assoc] at hch
    have := (List.isChain_append.1 hch).2.1
    simp only [List.singleton_append, List.isChain_cons_cons] at this
    exact this.2.1
  have hlu : (g.vert (lst u)).metal = (g.vert (hd u)).metal := hm u (by simp) _ (lst_mem (hne u (by simp)))
  have e6 : p = (A'.flatten ++ lu) ++ lst u :: (t ++ hd v :: (lv ++ B'.flatten)) := by
    rw [← hf]
    simp only [List.flatten_append, List.flatten_cons, List.flatten_nil, List.append_nil]
    conv => lhs; rw [e3, e4]
    simp
  exact (span_ok hp hc e6 htne (hm t (by simp)) (by rw [hlu]; exact hut) htv).2.2

theorem wire_length (g : Grid) (a b : Nat) : length (wire g a b) = dist g a b := rfl

theorem extend_length {r : Rules} {w : Wire} (h : Straight r w) (label : Nat) :
    length (extend r w label) = length w + (stretch (r.minL w.metal) (length w) label).1 + (stretch (r.minL w.metal) (length w) label).2 := by
  obtain ⟨h1, h2, h3⟩ := extend_spec (r := r) w label
  have hn := stretch_nonneg (r.minL w.metal) (length w) label
  generalize stretch (r.minL w.metal) (length w) label = e at *
  generalize extend r w label = v at *
  unfold Straight at h
  unfold length
  by_cases k : r.horizontal w.metal = true
  · rw [if_pos k] at h
    obtain ⟨e1, e2, e3, e4⟩ := h2 k
    rw [e1, e2, h]
    simp only [abs_eq_max_neg]
    omega
  · rw [if_neg k] at h
    obtain ⟨e1, e2, e3, e4⟩ := h3 (by simpa using k)
    rw [e1, e2, h]
    simp only [abs_eq_max_neg]
    omega

theorem interior {g : Grid} {r : Rules} {p : List Nat} {W V V' : List Wire} {w : Wire} (hd' : drawn g r p = some W)
    (hW : W = V ++ w :: V') (hV : V ≠ []) (hV' : V' ≠ []) : ∃ A t B, runs g p = A ++ t :: B ∧ A ≠ [] ∧ B ≠ []
      ∧ w = extend r (wire g (hd t) (lst t)) (labelOf g r (runs g p).length A.length (hd t) (lst t))
      ∧ A.length ≠ 0 ∧ A.length + 1 ≠ (runs g p).length := by
  rw [drawn_eq] at hd'
  have hd' := Option.some.inj hd'
  rw [hW] at hd'
  have hlen := congrArg List.length hd'
  simp at hlen
  have hi : V.length < (runs g p).length := by omega
  refine ⟨(runs g p).take V.length, (runs g p)[V.length], (runs g p).drop (V.length + 1), ?_, ?_, ?_, ?_, ?_, ?_⟩
  · simp
  · intro e
    have := congrArg List.length e
    simp at this
    rcases this with k | k
    · exact hV k
    · rw [k] at hi; simp at hi
  · intro e
    have := congrArg List.length e
    simp at this
    have : V'.length = 0 := by omega
    exact hV' (List.length_eq_zero_iff.1 this)
  · have := congrArg (fun l => l[V.length]?) hd'
    simp [hi] at this
    rw [← this]
    congr 2
    simp
    omega
  · have := List.length_pos_of_ne_nil hV
    rw [List.length_take]
    omega
  · have := List.length_pos_of_ne_nil hV'
    rw [List.length_take]
    omega

theorem label_cases {g : Grid} {r : Rules} {n i a b : Nat} (h0 : i ≠ 0) (h1 : i + 1 ≠ n) (h : r.minL (g.vert a).metal ≤ dist g a b
      ∨ extBoth g a b (dist g a b) (r.minL (g.vert a).metal) = true
      ∨ extHead g a b (dist g a b) (r.minL (g.vert a).metal) = true
      ∨ extTail g a b (dist g a b) (r.minL (g.vert a).metal) = true) :
    r.minL (g.vert a).metal ≤ dist g a b ∨ labelOf g r n i a b = 1 ∨ labelOf g r n i a b = 2 ∨ labelOf g r n i a b = 3 := by
  by_cases hl : r.minL (g.vert a).metal ≤ dist g a b
  · exact Or.inl hl
  · right
    unfold labelOf
    rw [if_neg (by simp [h0, h1]), if_neg hl]
    split_ifs with k1 k2 k3 k4 k5 <;> simp
    rcases h with h | h | h | h
    · exact hl h
    · exact k1 h
    · exact k2 h
    · exact k4 h

/-- C114, in part: the wires between the first and the last fall short of the shortest length of their layer by at most one unit. -/
theorem C114_length_partial {g : Grid} {r : Rules} {src dests : List Nat} {sym : List Wire} {cost cost2 : Nat → Rat}
    {back : Nat → Option Nat} {fuel : Nat} {p : List Nat} {W V V' : List Wire} {w : Wire} (hs : Sound g r) (hsrc : ∀ s ∈ src, s < g.size)
    (h : astar g r src dests sym cost cost2 back fuel = .path p) (hW : drawn g r p = some W) (hw : W = V ++ w :: V') (hV : V ≠ [])
    (hV' : V' ≠ []) : r.minL w.metal ≤ |w.x0 - w.x1| + |w.y0 - w.y1| + 1
      ∧ ((∀ m, 2 ∣ r.minL m) → (∀ v, v < g.size → 2 ∣ (g.vert v).x ∧ 2 ∣ (g.vert v).y) → r.minL w.metal ≤ |w.x0 - w.x1| + |w.y0 - w.y1|) := by
  obtain ⟨hp, hc⟩ := astar_path hs hsrc h
  obtain ⟨A, t, B, e1, hA, hB, e2, h0, h1⟩ := interior hW hw hV hV'
  have hst := stay_of_run hs hp (t := t) (by rw [e1]; simp)
  have hsw := wire_straight hst
  have hlab := label_cases (n := (runs g p).length) h0 h1 (stay_ok hp hc e1 hA hB)
  have htp : ∀ n ∈ t, n < g.size := by
    intro n hn
    apply hp.nodes
    rw [← runs_flat g p, e1]
    simp [hn]
  have hlen := extend_length hsw (labelOf g r (runs g p).length A.length (hd t) (lst t))
  rw [← e2, wire_length] at hlen
  have hmet : w.metal = (g.vert (hd t)).metal := by rw [e2]; exact (extend_spec _ _).1
  have hwm : (wire g (hd t) (lst t)).metal = (g.vert (hd t)).metal := rfl
  rw [hwm] at hlen
  rw [hmet]
  have hn := stretch_nonneg (r.minL (g.vert (hd t)).metal) (dist g (hd t) (lst t)) (labelOf g r (runs g p).length A.length (hd t) (lst t))
  change _ ≤ length w + 1 ∧ (_ → _ → _ ≤ length w)
  rw [hlen]
  have heven : (∀ m, 2 ∣ r.minL m) → (∀ v, v < g.size → 2 ∣ (g.vert v).x ∧ 2 ∣ (g.vert v).y) →
      2 ∣ r.minL (g.vert (hd t)).metal - dist g (hd t) (lst t) := by
    intro k1 k2
    have j1 := k2 _ (htp _ (hd_mem hst.ne))
    have j2 := k2 _ (htp _ (lst_mem hst.ne))
    have j3 := k1 (g.vert (hd t)).metal
    unfold dist
    rw [abs_eq_max_neg, abs_eq_max_neg]
    omega
  generalize dist g (hd t) (lst t) = len at *
  generalize r.minL (g.vert (hd t)).metal = need at *
  unfold stretch at hn ⊢
  by_cases hl : len < need
  · have hb := half_bounds (d := need - len) (by omega)
    simp only [hl, if_true] at hn ⊢
    rcases hlab with k | k | k | k
    · omega
    · simp only [k, if_true]
      refine ⟨by omega, fun a1 a2 => ?_⟩
      have := heven a1 a2
      omega
    · simp [k]
    · simp [k]
  · simp only [hl, if_false]
    exact ⟨by omega, fun _ _ => by omega⟩

/-! ## Proofs: only free nodes are covered -/

theorem reach_spec {g : Grid} {a : Nat} {dir need : Int} : ∀ {f n : Nat}, reach g a dir need f (dist g n a) n = true → n < g.size →
    ∃ k : Nat, (∃ m : Nat, (m : Int) = n + dir * k ∧ m < g.size ∧ need ≤ dist g m a)
      ∧ (∀ i : Nat, 1 ≤ i → i ≤ k → ∃ m : Nat, (m : Int) = n + dir * i ∧ m < g.size ∧ (g.vert m).active = true
        ∧ ((g.vert m).x = (g.vert a).x ∨ (g.vert m).y = (g.vert a).y) ∧ (g.vert m).metal = (g.vert a).metal)
      ∧ ∀ i : Nat, i < k → ∀ m : Nat, (m : Int) = n + dir * i → dist g m a < need
  | 0, _, h, _ => by simp [reach] at h
  | f + 1, n, h, hn => by
    unfold reach at h
    by_cases h1 : need ≤ dist g n a
    · exact ⟨0, ⟨n, by simp, hn, h1⟩, fun i _ _ => by omega, fun i hi => by omega⟩
    rw [if_neg h1] at h
    unfold inRange at h
    by_cases h2 : (n : Int) + dir < 0 ∨ (g.size : Int) ≤ n + dir
    · rw [if_pos h2] at h; simp at h
    rw [if_neg h2] at h
    simp only at h
    obtain ⟨m, hm⟩ : ∃ m : Nat, (m : Int) = n + dir := ⟨((n : Int) + dir).toNat, by omega⟩
    have hmn : ((n : Int) + dir).toNat = m := by omega
    rw [hmn] at h
    by_cases h3 : (g.vert m).active = true
    · rw [if_neg (by simpa using h3)] at h
      by_cases h4 : ((g.vert m).x ≠ (g.vert a).x ∧ (g.vert m).y ≠ (g.vert a).y) ∨ (g.vert m).metal ≠ (g.vert a).metal
      · rw [if_pos h4] at h; simp at h
      rw [if_neg h4] at h
      have hms : m < g.size := by omega
      obtain ⟨k, ⟨z, k1, k2, k3⟩, k4, k5⟩ := reach_spec h hms
      have harr : ∀ i : Nat, (n : Int) + dir * ((i + 1 : Nat) : Int) = m + dir * i := by
        intro i
        rw [hm]
        push_cast
        rw [Int.mul_add]
        omega
      refine ⟨k + 1, ⟨z, by rw [harr]; exact k1, k2, k3⟩, ?_, ?_⟩
      · intro i hi1 hi2
        by_cases e : i = 1
        · refine ⟨m, by rw [e, hm]; simp, hms, h3, ?_, ?_⟩
          · by_contra hc
            exact h4 (Or.inl ⟨fun e => hc (Or.inl e), fun e => hc (Or.inr e)⟩)
          · by_contra hc
            exact h4 (Or.inr hc)
        · obtain ⟨j, rfl⟩ : ∃ j, i = j + 1 := ⟨i - 1, by omega⟩
          rw [harr]
          exact k4 j (by omega) (by omega)
      · intro i hi q hq
        cases i with
        | zero =>
          have : q = n := by simp at hq; omega
          rw [this]; omega
        | succ j =>
          rw [harr] at hq
          exact k5 j (by omega) q hq
    · rw [if_pos (by simpa using h3)] at h; simp at h

theorem dist_pos (g : Grid) (r : Rules) (a b : Nat) (h : (g.vert a).metal = (g.vert b).metal) :
    dist g a b = |pos g r a - pos g r b| + |line g r a - line g r b| := by
  unfold dist pos line
  rw [h]
  split_ifs <;> omega

theorem dist_self (g : Grid) (a : Nat) : dist g a a = 0 := by simp [dist]

theorem aligned {g : Grid} {r : Rules} {a b : Nat} (h : (g.vert a).metal = (g.vert b).metal)
    (hx : (g.vert a).x = (g.vert b).x ∨ (g.vert a).y = (g.vert b).y) : pos g r a = pos g r b ∨ line g r a = line g r b := by
  unfold pos line
  rw [h]
  split_ifs <;> tauto

theorem free_up {g : Grid} {r : Rules} (ht : Tracks g r) {a n : Nat} {need : Int} (ha : a < g.size) (hneed : need ≤ r.minL (g.vert a).metal)
    (h : reach g a 1 need (g.size + 2) 0 a = true) (hn : n < g.size) (hm : (g.vert n).metal = (g.vert a).metal)
    (hl : line g r n = line g r a) (hlt : a < n) (hle : pos g r n ≤ pos g r a + need) : (g.vert n).active = true := by
  rw [← dist_self g a] at h
  obtain ⟨k, ⟨z, hz1, hz2, hz3⟩, k2, k3⟩ := reach_spec h ha
  have hline : ∀ i : Nat, 1 ≤ i → i ≤ k → line g r (a + i) = line g r a ∧ (g.vert (a + i)).metal = (g.vert a).metal ∧ a + i < g.size
      ∧ (g.vert (a + i)).active = true := by
    intro i hi1 hi2
    obtain ⟨m, m1, m2, m3, m4, m5⟩ := k2 i hi1 hi2
    have hmi : m = a + i := by omega
    rw [hmi] at m2 m3 m4 m5
    refine ⟨?_, m5, m2, m3⟩
    rcases aligned (r := r) m5 m4 with e | e
    · obtain ⟨u, u1, u2, u4, u3⟩ := ht.longUp a (a + i) (by omega) m2 m5.symm e.symm
      rcases u3 with u3 | u3
      · have := k3 (u - a) (by omega) u (by omega)
        rw [dist_pos g r u a u4] at this
        have hab := abs_nonneg (line g r u - line g r a)
        omega
      · obtain ⟨q, q1, _, _, q4, q5⟩ := k2 (u - a) (by omega) (by omega)
        have hq : q = u := by omega
        rw [hq] at q4 q5
        rcases aligned (r := r) q5 q4 with e | e
        · exact absurd e u3.1
        · exact absurd e u3.2
    · exact e
  by_cases hk : n ≤ a + k
  · obtain ⟨i, hi⟩ : ∃ i, n = a + i := ⟨n - a, by omega⟩
    rw [hi]
    exact (hline i (by omega) (by omega)).2.2.2
  · exfalso
    have hzk : z = a + k := by omega
    rw [hzk] at hz3 hz2
    by_cases hk0 : k = 0
    · rw [hk0, Nat.add_zero, dist_self] at hz3
      have := ht.order a n hlt hn hm.symm hl.symm
      omega
    · obtain ⟨l1, l2, l3, _⟩ := hline k (by omega) (Nat.le_refl _)
      have o1 := ht.order a (a + k) (by omega) l3 l2.symm l1.symm
      have o2 := ht.order (a + k) n (by omega) hn (l2.trans hm.symm) (l1.trans hl.symm)
      rw [dist_pos g r _ _ l2, l1, abs_of_pos (by omega : (0 : Int) < pos g r (a + k) - pos g r a)] at hz3
      simp at hz3
      omega

theorem free_down {g : Grid} {r : Rules} (ht : Tracks g r) {a n : Nat} {need : Int} (ha : a < g.size)
    (hneed : need ≤ r.minL (g.vert a).metal)
    (h : reach g a (-1) need (g.size + 2) 0 a = true) (hm : (g.vert n).metal = (g.vert a).metal)
    (hl : line g r n = line g r a) (hlt : n < a) (hle : pos g r a - need ≤ pos g r n) : (g.vert n).active = true := by
  rw [← dist_self g a] at h
  obtain ⟨k, ⟨z, hz1, hz2, hz3⟩, k2, k3⟩ := reach_spec h ha
  have hka : k ≤ a := by omega
  have hline : ∀ i : Nat, 1 ≤ i → i ≤ k → line g r (a - i) = line g r a ∧ (g.vert (a - i)).metal = (g.vert a).metal ∧ a - i < g.size
      ∧ (g.vert (a - i)).active = true := by
    intro i hi1 hi2
    obtain ⟨m, m1, m2, m3, m4, m5⟩ := k2 i hi1 hi2
    have hmi : m = a - i := by omega
    rw [hmi] at m2 m3 m4 m5
    refine ⟨?_, m5, m2, m3⟩
    rcases aligned (r := r) m5 m4 with e | e
    · obtain ⟨u, u1, u2, u4, u3⟩ := ht.longDown (a - i) a (by omega) ha m5 e
      rcases u3 with u3 | u3
      · have := k3 (a - u) (by omega) u (by omega)
        rw [dist_pos g r u a u4] at this
        have hab := abs_nonneg (line g r u - line g r a)
        omega
      · obtain ⟨q, q1, _, _, q4, q5⟩ := k2 (a - u) (by omega) (by omega)
        have hq : q = u := by omega
        rw [hq] at q4 q5
        rcases aligned (r := r) q5 q4 with e | e
        · exact absurd e u3.1
        · exact absurd e u3.2
    · exact e
  by_cases hk : a - k ≤ n
  · obtain ⟨i, hi, hi'⟩ : ∃ i, n = a - i ∧ i ≤ a := ⟨a - n, by omega, by omega⟩
    rw [hi]
    exact (hline i (by omega) (by omega)).2.2.2
  · exfalso
    have hzk : z = a - k := by omega
    rw [hzk] at hz3 hz2
    by_cases hk0 : k = 0
    · rw [hk0, Nat.sub_zero, dist_self] at hz3
      have := ht.order n a hlt ha hm hl
      omega
    · obtain ⟨l1, l2, l3, _⟩ := hline k (by omega) (Nat.le_refl _)
      have o1 := ht.order (a - k) a (by omega) ha l2 l1
      have o2 := ht.order n (a - k) (by omega) l3 (hm.trans l2.symm) (hl.trans l1.symm)
      rw [dist_pos g r _ _ l2, l1, abs_of_neg (by omega : pos g r (a - k) - pos g r a < 0)] at hz3
      simp at hz3
      omega

theorem ends_size {g : Grid} {r : Rules} {src dests p : List Nat} (hp : Connects g r src dests p) {t : List Nat} (h : t ∈ runs g p) :
    ∀ n ∈ t, n < g.size := by
  intro n hn
  apply hp.nodes
  rw [← runs_flat g p]
  exact List.mem_flatten.2 ⟨t, h, hn⟩

theorem active_of_mem {g : Grid} {r : Rules} {src dests p : List Nat} (hp : Connects g r src dests p) (h2 : 2 ≤ p.length) :
    ∀ n ∈ p, (g.vert n).active = true := by
  intro n hn
  obtain ⟨l, l', e⟩ := List.append_of_mem hn
  cases l' with
  | cons b l' => exact (hp.steps n b l l' e).1
  | nil =>
    rcases List.eq_nil_or_concat l with k | ⟨l1, a, k⟩
    · rw [e, k] at h2; simp at h2
    · exact (hp.steps a n l1 [] (by rw [e, k]; simp)).2.1

/-- The points of a grown wire, seen along the track. -/
theorem on_pos {g : Grid} {r : Rules} {t : List Nat} (h : Stay g r t) {label n : Nat}
    (hn : On (extend r (wire g (hd t) (lst t)) label) (g.vert n).metal (g.vert n).x (g.vert n).y) :
    (g.vert n).metal = (g.vert (hd t)).metal ∧ line g r n = line g r (hd t)
      ∧ min (pos g r (hd t)) (pos g r (lst t)) - (stretch (r.minL (g.vert (hd t)).metal) (dist g (hd t) (lst t)) label).1 ≤ pos g r n
      ∧ pos g r n ≤ max (pos g r (hd t)) (pos g r (lst t)) + (stretch (r.minL (g.vert (hd t)).metal) (dist g (hd t) (lst t)) label).2 := by
  obtain ⟨h1, h2, h3⟩ := extend_spec (r := r) (wire g (hd t) (lst t)) label
  have hst := wire_straight h
  have hm := h.metal _ (lst_mem h.ne)
  obtain ⟨n1, n2, n3, n4, n5⟩ := hn
  have hwm : (wire g (hd t) (lst t)).metal = (g.vert (hd t)).metal := rfl
  rw [h1, hwm] at n1
  unfold Straight at hst
  rw [hwm] at h2 h3 hst
  rw [wire_length] at h2 h3
  refine ⟨n1.symm, ?_⟩
  unfold Wires.line pos
  rw [← n1, hm]
  by_cases k : r.horizontal (g.vert (hd t)).metal = true
  · obtain ⟨e1, e2, e3, e4⟩ := h2 k
    rw [if_pos k] at hst
    simp only [k, if_true]
    rw [e3] at n2
    rw [e4] at n3
    rw [e1, e2, ← hst] at n4 n5
    simp only [min_self, max_self] at n4 n5
    exact ⟨le_antisymm n5 n4, n2, n3⟩
  · obtain ⟨e1, e2, e3, e4⟩ := h3 (by simpa using k)
    rw [if_neg k] at hst
    simp only [k, Bool.false_eq_true, if_false]
    rw [e3] at n4
    rw [e4] at n5
    rw [e1, e2, ← hst] at n2 n3
    simp only [min_self, max_self] at n2 n3
    exact ⟨le_antisymm n3 n2, n4, n5⟩

/-- C114: a wire, grown or not, covers free nodes only. -/
theorem C114_free {g : Grid} {r : Rules} {src dests : List Nat} {sym : List Wire} {cost cost2 : Nat → Rat}
    {back : Nat → Option Nat} {fuel : Nat} {p : List Nat} {W : List Wire} {w : Wire} {n : Nat} (hs : Sound g r) (ht : Tracks g r)
    (hsrc : ∀ s ∈ src, s < g.size)
    (h : astar g r src dests sym cost cost2 back fuel = .path p) (h2 : 2 ≤ p.length) (hW : drawn g r p = some W) (hw : w ∈ W)
    (hn : n < g.size) (hon : On w (g.vert n).metal (g.vert n).x (g.vert n).y) : (g.vert n).active = true := by
  obtain ⟨hp, hc⟩ := astar_path hs hsrc h
  rw [drawn_eq] at hW
  rw [← Option.some.inj hW] at hw
  obtain ⟨⟨t, i⟩, he, ew⟩ := List.mem_map.1 hw
  have htm : t ∈ runs g p := (List.mem_zipIdx_iff_getElem?.1 he) |> List.mem_of_getElem?
  simp only at ew
  rw [← ew] at hon
  have hst := stay_of_run hs hp htm
  have hsz := ends_size hp htm
  have hha := hsz _ (hd_mem hst.ne)
  have hla := hsz _ (lst_mem hst.ne)
  have hlm := hst.metal _ (lst_mem hst.ne)
  have hll := hst.line _ (lst_mem hst.ne)
  obtain ⟨n1, n2, n3, n4⟩ := on_pos hst hon
  by_cases hin : min (hd t) (lst t) ≤ n ∧ n ≤ max (hd t) (lst t)
  · apply active_of_mem hp h2
    rw [← runs_flat g p]
    exact List.mem_flatten.2 ⟨t, htm, hst.whole n hin.1 hin.2⟩
  -- the node is beyond one of the ends
  have hup := hst.up
  have hdn := hst.down
  have o1 : n < hd t → pos g r n < pos g r (hd t) := fun k => ht.order n (hd t) k hha n1 n2
  have o2 : hd t < n → pos g r (hd t) < pos g r n := fun k => ht.order (hd t) n k hn n1.symm n2.symm
  have o3 : n < lst t → pos g r n < pos g r (lst t) := fun k => ht.order n (lst t) k hla (n1.trans hlm.symm) (n2.trans hll.symm)
  have o4 : lst t < n → pos g r (lst t) < pos g r n := fun k => ht.order (lst t) n k hn (hlm.trans n1.symm) (hll.trans n2.symm)
  have hpe : hd t = lst t → pos g r (hd t) = pos g r (lst t) := fun e : hd t = lst t => congrArg (pos g r) e
  have hdist : 0 ≤ dist g (hd t) (lst t) := by
    unfold dist
    have a1 := abs_nonneg ((g.vert (hd t)).x - (g.vert (lst t)).x)
    have a2 := abs_nonneg ((g.vert (hd t)).y - (g.vert (lst t)).y)
    omega
  have hup' : ∀ {a : Nat} {need : Int}, a = hd t ∨ a = lst t → need ≤ r.minL (g.vert (hd t)).metal →
      reach g a 1 need (g.size + 2) 0 a = true → a < n → pos g r n ≤ pos g r a + need → (g.vert n).active = true := by
    intro a need ha hneed hr hlt hle
    rcases ha with ha | ha
    · rw [ha] at hr hlt hle
      exact free_up ht hha hneed hr hn n1 n2 hlt hle
    · rw [ha] at hr hlt hle
      exact free_up ht hla (by rw [hlm]; exact hneed) hr hn (n1.trans hlm.symm) (n2.trans hll.symm) hlt hle
  have hdn' : ∀ {a : Nat} {need : Int}, a = hd t ∨ a = lst t → need ≤ r.minL (g.vert (hd t)).metal →
      reach g a (-1) need (g.size + 2) 0 a = true → n < a → pos g r a - need ≤ pos g r n → (g.vert n).active = true := by
    intro a need ha hneed hr hlt hle
    rcases ha with ha | ha
    · rw [ha] at hr hlt hle
      exact free_down ht hha hneed hr n1 n2 hlt hle
    · rw [ha] at hr hlt hle
      exact free_down ht hla (by rw [hlm]; exact hneed) hr (n1.trans hlm.symm) (n2.trans hll.symm) hlt hle
  generalize hlab : labelOf g r (runs g p).length i (hd t) (lst t) = lab at *
  unfold labelOf at hlab
  unfold stretch at n3 n4
  by_cases hlen : dist g (hd t) (lst t) < r.minL (g.vert (hd t)).metal
  · rw [if_pos hlen] at n3 n4
    by_cases hi0 : i = 0 ∨ i + 1 = (runs g p).length
    · rw [if_pos hi0] at hlab
      rw [← hlab] at n3 n4
      simp at n3 n4
      omega
    rw [if_neg hi0, if_neg (by omega)] at hlab
    have hb := half_bounds (d := r.minL (g.vert (hd t)).metal - dist g (hd t) (lst t)) (by omega)
    have hhalf : Int.tdiv (r.minL (g.vert (hd t)).metal - dist g (hd t) (lst t)) 2
          ≤ -Int.fdiv (-(r.minL (g.vert (hd t)).metal - dist g (hd t) (lst t))) 2
        ∧ -Int.fdiv (-(r.minL (g.vert (hd t)).metal - dist g (hd t) (lst t))) 2 ≤ r.minL (g.vert (hd t)).metal := by
      rw [Int.fdiv_eq_ediv_of_nonneg _ (by decide)]
      omega
    by_cases k1 : extBoth g (hd t) (lst t) (dist g (hd t) (lst t)) (r.minL (g.vert (hd t)).metal) = true
    · rw [if_pos k1] at hlab
      rw [← hlab] at n3 n4
      simp only [if_true] at n3 n4
      unfold extBoth at k1
      simp only [Bool.and_eq_true] at k1
      by_cases hle : hd t ≤ lst t
      · rw [show headDir (hd t) (lst t) = -1 from if_pos hle] at k1
        by_cases hl1 : n < hd t
        · exact hdn' (Or.inl rfl) hhalf.2 k1.1 hl1 (by omega)
        · exact hup' (Or.inr rfl) hhalf.2 k1.2 (by omega) (by omega)
      · rw [show headDir (hd t) (lst t) = 1 from if_neg hle] at k1
        by_cases hl1 : n < lst t
        · exact hdn' (Or.inr rfl) hhalf.2 k1.2 hl1 (by omega)
        · exact hup' (Or.inl rfl) hhalf.2 k1.1 (by omega) (by omega)
    rw [if_neg k1] at hlab
    by_cases k2 : extHead g (hd t) (lst t) (dist g (hd t) (lst t)) (r.minL (g.vert (hd t)).metal) = true
    · rw [if_pos k2] at hlab
      unfold extHead at k2
      by_cases hle : hd t ≤ lst t
      · rw [show headDir (hd t) (lst t) = -1 from if_pos hle] at k2 hlab
        simp at hlab
        rw [← hlab] at n3 n4
        simp at n3 n4
        exact hdn' (Or.inl rfl) (by omega) k2 (by omega) (by omega)
      · rw [show headDir (hd t) (lst t) = 1 from if_neg hle] at k2 hlab
        simp at hlab
        rw [← hlab] at n3 n4
        simp at n3 n4
        exact hup' (Or.inl rfl) (by omega) k2 (by omega) (by omega)
    rw [if_neg k2] at hlab
    by_cases k3 : extTail g (hd t) (lst t) (dist g (hd t) (lst t)) (r.minL (g.vert (hd t)).metal) = true
    · rw [if_pos k3] at hlab
      unfold extTail at k3
      by_cases hle : hd t ≤ lst t
      · rw [show headDir (hd t) (lst t) = -1 from if_pos hle] at k3 hlab
        simp at hlab
        rw [← hlab] at n3 n4
        simp at n3 n4
        exact hup' (Or.inr rfl) (by omega) k3 (by omega) (by omega)
      · rw [show headDir (hd t) (lst t) = 1 from if_neg hle] at k3 hlab
        simp at hlab
        rw [← hlab] at n3 n4
        simp at n3 n4
        exact hdn' (Or.inr rfl) (by omega) k3 (by omega) (by omega)
    rw [if_neg k3] at hlab
    rw [← hlab] at n3 n4
    simp at n3 n4
    omega
  · rw [if_neg hlen] at n3 n4
    simp only at n3 n4
    omega

/-- C122: if a path goes from a layer to a next one and, after a stay there, back, the two vias have room: along the layer of the stay they are at least the size of a via
and the space between vias apart. -/
theorem C122_room {g : Grid} {r : Rules} {src dests : List Nat} {sym : List Wire} {cost cost2 : Nat → Rat} {back : Nat → Option Nat}
    {fuel : Nat} {p : List Nat} (hs : Sound g r) (hsrc : ∀ s ∈ src, s < g.size)
    (h : astar g r src dests sym cost cost2 back fuel = .path p) {before after stay : List Nat} {q a b n : Nat} {m m' : Nat}
    (hp : p = before ++ q :: (stay ++ n :: after)) (ha : stay.head? = some a) (hb : stay.getLast? = some b)
    (hm : ∀ k ∈ stay, (g.vert k).metal = m) (hq : (g.vert q).metal = m') (hn : (g.vert n).metal = m') (hne : m ≠ m') :
    if r.horizontal m then r.viaWidth (min m m') + r.viaGapX (min m m') ≤ |(g.vert a).x - (g.vert b).x|
    else r.viaHeight (min m m') + r.viaGapY (min m m') ≤ |(g.vert a).y - (g.vert b).y| := by
  obtain ⟨hc, hk⟩ := astar_path hs hsrc h
  have htne : stay ≠ [] := fun e => by rw [e] at ha; exact absurd ha (by simp)
  have hha : hd stay = a := by
    cases stay with
    | nil => exact absurd rfl htne
    | cons x l => exact Option.some.inj ha
  have hhb : lst stay = b := by
    unfold lst
    rw [List.getLastD_eq_getLast?, hb]
    rfl
  have hma : (g.vert a).metal = m := hm a (hha ▸ hd_mem htne)
  have hmb : (g.vert b).metal = m := hm b (hhb ▸ lst_mem htne)
  obtain ⟨h1, h2, _⟩ := span_ok hc hk hp htne (fun k hk' => by rw [hm k hk', hha, hma]) (by rw [hha, hma, hq]; exact fun e => hne e.symm)
    (by rw [hha, hma, hn]; exact hne)
  unfold viaGap at h1
  rw [h2, hha, hhb] at h1
  simp only at h1
  rw [if_pos (by rw [hq, hn]), hmb, hn] at h1
  have hmin : (if m < m' then m else m') = min m m' := by
    rw [Nat.min_def]
    split_ifs <;> omega
  rw [hmin] at h1
  -- the stay is straight
  have hstr : if r.horizontal m then (g.vert a).y = (g.vert b).y else (g.vert a).x = (g.vert b).x := by
    have hsplit : ∀ x y l l', stay = l ++ x :: y :: l' → Step g r x y := by
      intro x y l l' e
      refine hc.steps x y (before ++ q :: l) (l' ++ n :: after) ?_
      rw [hp, e]
      simp
    have gen : ∀ (l : List Nat) (c : Nat), (∀ x y l₁ l₂, c :: l = l₁ ++ x :: y :: l₂ → Step g r x y) → (∀ k ∈ c :: l, (g.vert k).metal = m) →
        if r.horizontal m then (g.vert c).y = (g.vert (lst (c :: l))).y else (g.vert c).x = (g.vert (lst (c :: l))).x := by
      intro l
      induction l with
      | nil => intro c _ _; split_ifs <;> rfl
      | cons d l ih =>
        intro c hst hmm
        have hi := ih d (fun x y l₁ l₂ e => hst x y (c :: l₁) l₂ (by rw [e]; rfl)) (fun k hk => hmm k (List.mem_cons_of_mem _ hk))
        obtain ⟨_, _, hcd⟩ := hst c d [] l rfl
        have m1 := hmm c List.mem_cons_self
        have m2 := hmm d (by simp)
        rw [lst_cons (by simp)]
        rcases hcd with hcd | ⟨_, hcd⟩ | ⟨_, hcd⟩
        · have := hcd.2.2
          rw [m1] at this
          split_ifs at this hi ⊢ with hh
          · rw [this.1]; exact hi
          · rw [this.1]; exact hi
        · have := hcd.1; omega
        · have := hcd.1; omega
    obtain ⟨l, hl⟩ := hd_split htne
    rw [hha] at hl
    have := gen l a (fun x y l₁ l₂ e => hsplit x y l₁ l₂ (by rw [hl]; exact e)) (fun k hk' => hm k (by rw [hl]; exact hk'))
    rw [← hl, hhb] at this
    exact this
  unfold dist at h1
  split_ifs at h1 hstr ⊢ with hh
  · rw [hstr] at h1
    simpa using h1
  · rw [hstr] at h1
    simpa using h1

/-! ## A route over three layers -/

/-- Two nodes on the first layer, a column of four on the second, two nodes on the third. -/
def stairs : Grid where
  size := 8
  vert := fun v =>
    if v = 0 then ⟨0, 0, 0, true, false, false, [], [], [1], [], none, none⟩
    else if v = 1 then ⟨10, 0, 0, true, true, false, [], [], [], [0], some 3, none⟩
    else if v = 2 then ⟨10, -10, 1, true, false, false, [3], [], [], [], none, none⟩
    else if v = 3 then ⟨10, 0, 1, true, false, true, [4], [2], [], [], none, some 1⟩
    else if v = 4 then ⟨10, 10, 1, true, true, false, [5], [3], [], [], some 6, none⟩
    else if v = 5 then ⟨10, 20, 1, true, false, false, [], [4], [], [], none, none⟩
    else if v = 6 then ⟨10, 10, 2, true, false, true, [], [], [7], [], none, some 4⟩
    else ⟨20, 10, 2, true, false, false, [], [], [], [6], none, none⟩
  centerX := 0
  centerY := 0

/-- The second layer is vertical; its wires must have the given length. -/
def stairsRules (need : Int) : Rules where
  horizontal := fun m => m ≠ 1
  minL := fun m => if m = 1 then need else 0
  viaWidth := fun _ => 1
  viaHeight := fun _ => 1
  viaGapX := fun _ => 1
  viaGapY := fun _ => 1
  unitR := fun _ => 1
  viaR := fun _ => 20

theorem stairs_sound (need : Int) : Sound stairs (stairsRules need) := by
  constructor <;>
  · intro v n hv h
    have hv8 : v < 8 := hv
    have : v = 0 ∨ v = 1 ∨ v = 2 ∨ v = 3 ∨ v = 4 ∨ v = 5 ∨ v = 6 ∨ v = 7 := by omega
    rcases this with rfl | rfl | rfl | rfl | rfl | rfl | rfl | rfl <;> simp [stairs] at h <;> subst h <;> simp [stairs, stairsRules]

theorem stairs_tracks (need : Int) : Tracks stairs (stairsRules need) := by
  have hall : ∀ v w : Fin 8, v.val < w.val → (stairs.vert v).metal = (stairs.vert w).metal →
      pos stairs (stairsRules 0) v < pos stairs (stairsRules 0) w := by
    decide +kernel
  have hall' : ∀ v w, v < w → w < 8 → (stairs.vert v).metal = (stairs.vert w).metal →
      pos stairs (stairsRules need) v < pos stairs (stairsRules need) w :=
    fun v w h1 h2 h3 => hall ⟨v, Nat.lt_trans h1 h2⟩ ⟨w, h2⟩ h1 h3
  constructor
  · intro v w h1 h2 h3 _
    exact hall' v w h1 h2 h3
  · intro v w h1 h2 h3 h4
    have := hall' v w h1 h2 h3
    omega
  · intro v w h1 h2 h3 h4
    have := hall' v w h1 h2 h3
    omega

/-- The path over the three layers. -/
theorem stairs_path (need : Int) (h : need = 11 ∨ need = 20) :
    astar stairs (stairsRules need) [0] [7] [] (fun _ => 1000000) (fun _ => 1000000) (fun _ => none) 30 = .path [0, 1, 3, 4, 6, 7] := by
  rcases h with rfl | rfl <;> decide +kernel

/-- Half of what is missing is added at each end. -/
example : drawn stairs (stairsRules 20) [0, 1, 3, 4, 6, 7] = some [⟨0, 0, 0, 10, 0⟩, ⟨1, 10, -5, 10, 15⟩, ⟨2, 10, 10, 20, 10⟩] := by
  decide +kernel

/-- C114 does not hold: a wire which lacks one unit of the shortest length is not grown at all, since half a unit is cut to nothing. -/
theorem C114_violated : ∃ (g : Grid) (r : Rules) (p : List Nat) (W : List Wire) (w : Wire), Sound g r ∧ Tracks g r
    ∧ astar g r [0] [7] [] (fun _ => 1000000) (fun _ => 1000000) (fun _ => none) 30 = .path p ∧ drawn g r p = some W
    ∧ (∃ V V', W = V ++ w :: V' ∧ V ≠ [] ∧ V' ≠ []) ∧ |w.x0 - w.x1| + |w.y0 - w.y1| < r.minL w.metal :=
  ⟨stairs, stairsRules 11, [0, 1, 3, 4, 6, 7], [⟨0, 0, 0, 10, 0⟩, ⟨1, 10, 0, 10, 10⟩, ⟨2, 10, 10, 20, 10⟩], ⟨1, 10, 0, 10, 10⟩,
    stairs_sound 11, stairs_tracks 11, stairs_path 11 (Or.inl rfl), by decide +kernel,
    ⟨[⟨0, 0, 0, 10, 0⟩], [⟨2, 10, 10, 20, 10⟩], rfl, by simp, by simp⟩, by decide +kernel⟩

/-! ## A route over a bridge -/

/-- A track of three nodes, the middle one blocked, and a track above it. -/
def bridge : Grid where
  size := 6
  vert := fun v =>
    if v = 0 then ⟨0, 0, 0, true, true, false, [], [], [1], [], some 3, none⟩
    else if v = 1 then ⟨10, 0, 0, false, false, false, [], [], [2], [0], none, none⟩
    else if v = 2 then ⟨20, 0, 0, true, true, false, [], [], [], [1], some 5, none⟩
    else if v = 3 then ⟨0, 0, 1, true, false, true, [], [], [4], [], none, some 0⟩
    else if v = 4 then ⟨10, 0, 1, true, false, false, [], [], [5], [3], none, none⟩
    else ⟨20, 0, 1, true, false, true, [], [], [], [4], none, some 2⟩
  centerX := 0
  centerY := 0

/-- Both layers are horizontal; the space between vias is given. -/
def bridgeRules (gap : Int) : Rules where
  horizontal := fun _ => true
  minL := fun _ => 0
  viaWidth := fun _ => 5
  viaHeight := fun _ => 5
  viaGapX := fun _ => gap
  viaGapY := fun _ => gap
  unitR := fun _ => 1
  viaR := fun _ => 20

theorem bridge_sound (gap : Int) : Sound bridge (bridgeRules gap) := by
  constructor <;>
  · intro v n hv h
    have hv6 : v < 6 := hv
    have : v = 0 ∨ v = 1 ∨ v = 2 ∨ v = 3 ∨ v = 4 ∨ v = 5 := by omega
    rcases this with rfl | rfl | rfl | rfl | rfl | rfl <;> simp [bridge] at h <;> subst h <;> simp [bridge, bridgeRules]

/-- With room for the vias the bridge is used, otherwise there is no path. -/
example : astar bridge (bridgeRules 15) [0] [2] [] (fun _ => 1000000) (fun _ => 1000000) (fun _ => none) 30 = .path ([] ++ 0 :: ([3, 4, 5] ++ 2 :: []))
    ∧ astar bridge (bridgeRules 16) [0] [2] [] (fun _ => 1000000) (fun _ => 1000000) (fun _ => none) 30 = .noPath := by
  decide +kernel

end Verif.Wires

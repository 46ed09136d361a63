import Mathlib.Data.List.Basic
import Mathlib.Tactic.ByContra

/-!
# C150 and C151: the power pins and the contacts of a power net

`router/PowerRouter.cpp`: `SetSrcDest` 867-928 (sources and targets), `InsertRoutingContact` 112-155, `RedundantContact` 157-198.

Simplifications: the map from distances to places in the list of metals has the metals themselves, with their places. `GetPhsical_Metal_Via` and `ExtendMetals` come before; the metals of the net are
given as they are after them. The set of contacts is a list without repetitions, whose order does not matter here: all contacts have two corners, so the order of the set takes two of them for the same only
if they are. Integers do not overflow.
-/

namespace Verif.PowerTarget

/-! ## The code -/

structure Rect where
  xl : Int
  yl : Int
  xu : Int
  yu : Int
deriving DecidableEq

/-- `SinkData`: `metalIdx` and `coord`. -/
structure Sink where
  layer : Int
  rect : Rect
deriving DecidableEq

/-- `MetalIdx`, `LinePoint`, `MetalRect`. -/
structure Metal where
  layer : Int
  line : Rect
  rect : Rect
deriving DecidableEq

/-- `lowest_metal_index` (888-893), from `INT_MAX`. -/
def lowest (ms : List Metal) : Int := ms.foldl (fun a m => if m.layer < a then m.layer else a) 2147483647

/-- The middle of a contact and of a metal, and their distance (900-906). -/
def dis (s : Sink) (m : Metal) : Int :=
  (((s.rect.xl + s.rect.xu).tdiv 2 - (m.line.xl + m.line.xu).tdiv 2).natAbs : Int) + (((s.rect.yl + s.rect.yu).tdiv 2 - (m.line.yl + m.line.yu).tdiv 2).natAbs : Int)

/-- `insert` of a `std::map`: an entry with the same key stays. -/
def mapIns (k : Int) (v : Nat × Metal) : List (Int × Nat × Metal) → List (Int × Nat × Metal)
  | [] => [(k, v)]
  | e :: es => if k < e.1 then (k, v) :: e :: es else if e.1 < k then e :: mapIns k v es else e :: es

/-- The two loops (899-911). -/
def distPair (src : List Sink) (ms : List Metal) : List (Int × Nat × Metal) :=
  src.foldl (fun d s => ms.zipIdx.foldl (fun d p => if p.1.layer = lowest ms then mapIns (dis s p.1) (p.2, p.1) d else d) d) []

/-- `SetSrcDest`: sources and targets. -/
def setSrcDest (pin : List Sink) (ms : List Metal) : List Sink × List Sink := (pin, ((distPair pin ms).take 7).map fun e => ⟨e.2.2.layer, e.2.2.rect⟩)

/-- A via: its layer and its place. -/
structure Via where
  layer : Int
  x : Int
  y : Int

/-- `Via_model`: the lower and the upper rectangle. -/
structure Model where
  lower : Int → Rect
  upper : Int → Rect

def at' (r : Rect) (x y : Int) : Rect := ⟨x + r.xl, y + r.yl, x + r.xu, y + r.yu⟩

/-- One of the loops of `RedundantContact`, over the merged metals of a grid. -/
def inGrid (g : List Sink) (c : Sink) : Bool :=
  g.any fun m => decide (m.layer = c.layer) && decide (m.rect.xl ≤ c.rect.xl) && decide (m.rect.yl ≤ c.rect.yl) && decide (m.rect.xu ≥ c.rect.xu) && decide (m.rect.yu ≥ c.rect.yu)

/-- `RedundantContact` (157-198). -/
def redundant (vdd gnd : List Sink) (c : Sink) (flag : Bool) : Bool := if flag then inGrid vdd c else inGrid gnd c

def setIns (c : Sink) (l : List Sink) : List Sink := if c ∈ l then l else l ++ [c]

/-- One via (129-154). The flag of the net is not used, as in the code. -/
def viaIns (M : Model) (vdd gnd : List Sink) (l : List Sink) (v : Via) : List Sink :=
  let lo : Sink := ⟨v.layer, at' (M.lower v.layer) v.x v.y⟩
  let up : Sink := ⟨v.layer + 1, at' (M.upper v.layer) v.x v.y⟩
  let l1 := if !redundant vdd gnd lo true then setIns lo l else l
  if !redundant vdd gnd up false then setIns up l1 else l1

/-- `InsertRoutingContact`. -/
def insertContacts (M : Model) (vdd gnd : List Sink) (path : List Sink) (vias : List Via) (_flag : Bool) (l : List Sink) : List Sink :=
  vias.foldl (viaIns M vdd gnd) (path.foldl (fun l c => setIns c l) l)

/-! ## What the properties say -/

/-- The middle of a rectangle; halves are cut off. -/
def Mid (r : Rect) : Int × Int := ((r.xl + r.xu).tdiv 2, (r.yl + r.yu).tdiv 2)

/-- The distance along the axes. -/
def Dist (p q : Int × Int) : Int := max (p.1 - q.1) (q.1 - p.1) + max (p.2 - q.2) (q.2 - p.2)

/-- A metal of the grid on its lowest layer. -/
def OnLowest (ms : List Metal) (m : Metal) : Prop := m ∈ ms ∧ ∀ n ∈ ms, m.layer ≤ n.layer

/-- The first contact lies within the second, on the same layer. -/
def Within (c m : Sink) : Prop := c.layer = m.layer ∧ m.rect.xl ≤ c.rect.xl ∧ m.rect.yl ≤ c.rect.yl ∧ c.rect.xu ≤ m.rect.xu ∧ c.rect.yu ≤ m.rect.yu

/-- The lower and the upper pad of a via. -/
def Lower (M : Model) (v : Via) : Sink := ⟨v.layer, ⟨v.x + (M.lower v.layer).xl, v.y + (M.lower v.layer).yl, v.x + (M.lower v.layer).xu, v.y + (M.lower v.layer).yu⟩⟩
def Upper (M : Model) (v : Via) : Sink := ⟨v.layer + 1, ⟨v.x + (M.upper v.layer).xl, v.y + (M.upper v.layer).yl, v.x + (M.upper v.layer).xu, v.y + (M.upper v.layer).yu⟩⟩

/-- What the contacts of a net should be: its metals, and the pads of its vias that are not within a metal of the grid `own` of its net. -/
def Wanted (M : Model) (own path : List Sink) (vias : List Via) (c : Sink) : Prop :=
  c ∈ path ∨ ∃ v ∈ vias, (c = Lower M v ∨ c = Upper M v) ∧ ¬∃ m ∈ own, Within c m

/-! ## Proofs -/

theorem dis_eq (s : Sink) (m : Metal) : dis s m = Dist (Mid s.rect) (Mid m.line) := by
  unfold dis Dist Mid
  simp only
  omega

theorem lowest_fold : ∀ (ms : List Metal) (a : Int), ms.foldl (fun a m => if m.layer < a then m.layer else a) a ≤ a
    ∧ (∀ m ∈ ms, ms.foldl (fun a m => if m.layer < a then m.layer else a) a ≤ m.layer)
    ∧ (ms.foldl (fun a m => if m.layer < a then m.layer else a) a = a ∨ ∃ m ∈ ms, ms.foldl (fun a m => if m.layer < a then m.layer else a) a = m.layer)
  | [], a => ⟨Int.le_refl _, by simp, Or.inl rfl⟩
  | n :: ms, a => by
    rw [List.foldl_cons]
    obtain ⟨h1, h2, h3⟩ := lowest_fold ms (if n.layer < a then n.layer else a)
    have h0 : (if n.layer < a then n.layer else a) ≤ a ∧ (if n.layer < a then n.layer else a) ≤ n.layer := by
      split <;> omega
    refine ⟨Int.le_trans h1 h0.1, fun m hm => ?_, ?_⟩
    · rcases List.mem_cons.1 hm with rfl | hm
      · exact Int.le_trans h1 h0.2
      · exact h2 m hm
    · rcases h3 with h3 | ⟨m, hm, h3⟩
      · by_cases hc : n.layer < a
        · rw [if_pos hc] at h3 ⊢
          exact Or.inr ⟨n, List.mem_cons_self, h3⟩
        · rw [if_neg hc] at h3 ⊢
          exact Or.inl h3
      · exact Or.inr ⟨m, List.mem_cons_of_mem _ hm, h3⟩

theorem lowest_iff {ms : List Metal} (hl : ∀ m ∈ ms, m.layer < 2147483647) {m : Metal} (hm : m ∈ ms) : m.layer = lowest ms ↔ OnLowest ms m := by
  obtain ⟨-, h2, h3⟩ := lowest_fold ms 2147483647
  unfold OnLowest
  constructor
  · intro e
    exact ⟨hm, fun n hn => by rw [e]; exact h2 n hn⟩
  · rintro ⟨-, h⟩
    have h4 := h2 m hm
    unfold lowest
    rcases h3 with h3 | ⟨n, hn, h3⟩
    · have := hl m hm; omega
    · have := h n hn; omega

theorem mem_mapIns {k : Int} {v : Nat × Metal} : ∀ {d : List (Int × Nat × Metal)} {e : Int × Nat × Metal}, e ∈ mapIns k v d → e = (k, v) ∨ e ∈ d
  | [], e, h => by simp only [mapIns, List.mem_singleton] at h; exact Or.inl h
  | b :: d, e, h => by
    unfold mapIns at h
    split at h
    · exact List.mem_cons.1 h
    · split at h
      · rcases List.mem_cons.1 h with h | h
        · exact Or.inr (List.mem_cons.2 (Or.inl h))
        · exact (mem_mapIns h).imp id (List.mem_cons_of_mem _)
      · exact Or.inr h

theorem mapIns_old {k : Int} {v : Nat × Metal} : ∀ {d : List (Int × Nat × Metal)} {e : Int × Nat × Metal}, e ∈ d → e ∈ mapIns k v d
  | b :: d, e, h => by
    unfold mapIns
    split
    · exact List.mem_cons_of_mem _ h
    · split
      · rcases List.mem_cons.1 h with h | h
        · exact List.mem_cons.2 (Or.inl h)
        · exact List.mem_cons_of_mem _ (mapIns_old h)
      · exact h

theorem mapIns_new (k : Int) (v : Nat × Metal) : ∀ d : List (Int × Nat × Metal), ∃ e ∈ mapIns k v d, e.1 = k
  | [] => ⟨(k, v), by simp [mapIns], rfl⟩
  | b :: d => by
    unfold mapIns
    split
    · exact ⟨(k, v), List.mem_cons_self, rfl⟩
    · split
      · obtain ⟨e, he, h⟩ := mapIns_new k v d
        exact ⟨e, List.mem_cons_of_mem _ he, h⟩
      · exact ⟨b, List.mem_cons_self, by omega⟩

theorem mapIns_sorted (k : Int) (v : Nat × Metal) : ∀ d : List (Int × Nat × Metal), d.Pairwise (fun a b => a.1 < b.1) → (mapIns k v d).Pairwise fun a b => a.1 < b.1
  | [], _ => by simp [mapIns]
  | b :: d, h => by
    obtain ⟨h1, h2⟩ := List.pairwise_cons.1 h
    unfold mapIns
    split
    · rename_i hk
      refine List.pairwise_cons.2 ⟨fun e he => ?_, h⟩
      rcases List.mem_cons.1 he with rfl | he
      · exact hk
      · have := h1 e he
        simp only
        omega
    · split
      · rename_i hk
        refine List.pairwise_cons.2 ⟨fun e he => ?_, mapIns_sorted k v d h2⟩
        rcases mem_mapIns he with rfl | he
        · exact hk
        · exact h1 e he
      · exact h

/-- What holds of the map while it is filled: sorted, and each entry with its reason. -/
structure Good (pin : List Sink) (ms : List Metal) (d : List (Int × Nat × Metal)) : Prop where
  sorted : d.Pairwise fun a b => a.1 < b.1
  from' : ∀ e ∈ d, ∃ s ∈ pin, e.2.2 ∈ ms ∧ e.2.2.layer = lowest ms ∧ e.1 = dis s e.2.2

theorem inner_spec {pin : List Sink} {ms : List Metal} {s : Sink} (hs : s ∈ pin) : ∀ (ps : List (Metal × Nat)) (d : List (Int × Nat × Metal)), (∀ p ∈ ps, p.1 ∈ ms) → Good pin ms d →
    let r := ps.foldl (fun d p => if p.1.layer = lowest ms then mapIns (dis s p.1) (p.2, p.1) d else d) d
    Good pin ms r ∧ (∀ e ∈ d, e ∈ r) ∧ ∀ p ∈ ps, p.1.layer = lowest ms → ∃ e ∈ r, e.1 = dis s p.1
  | [], d, _, h => ⟨h, fun _ he => he, by simp⟩
  | p :: ps, d, hp, h => by
    simp only [List.foldl_cons]
    have h' : Good pin ms (if p.1.layer = lowest ms then mapIns (dis s p.1) (p.2, p.1) d else d) := by
      split
      · rename_i hc
        refine ⟨mapIns_sorted _ _ d h.sorted, fun e he => ?_⟩
        rcases mem_mapIns he with rfl | he
        · exact ⟨s, hs, hp p List.mem_cons_self, hc, rfl⟩
        · exact h.from' e he
      · exact h
    obtain ⟨h1, h2, h3⟩ := inner_spec hs ps _ (fun q hq => hp q (List.mem_cons_of_mem _ hq)) h'
    refine ⟨h1, fun e he => h2 e ?_, fun q hq hc => ?_⟩
    · split
      · exact mapIns_old he
      · exact he
    · rcases List.mem_cons.1 hq with rfl | hq
      · obtain ⟨e, he, hk⟩ := mapIns_new (dis s q.1) (q.2, q.1) d
        exact ⟨e, h2 e (by rw [if_pos hc]; exact he), hk⟩
      · exact h3 q hq hc

theorem outer_spec {pin : List Sink} {ms : List Metal} : ∀ (ss : List Sink) (d : List (Int × Nat × Metal)), (∀ s ∈ ss, s ∈ pin) → Good pin ms d →
    let r := ss.foldl (fun d s => ms.zipIdx.foldl (fun d p => if p.1.layer = lowest ms then mapIns (dis s p.1) (p.2, p.1) d else d) d) d
    Good pin ms r ∧ (∀ e ∈ d, e ∈ r) ∧ ∀ s ∈ ss, ∀ m ∈ ms, m.layer = lowest ms → ∃ e ∈ r, e.1 = dis s m
  | [], d, _, h => ⟨h, fun _ he => he, by simp⟩
  | s :: ss, d, hp, h => by
    simp only [List.foldl_cons]
    obtain ⟨h1, h2, h3⟩ := inner_spec (hp s List.mem_cons_self) ms.zipIdx d (fun p hq => by
      obtain ⟨-, -, e⟩ := List.mem_zipIdx (x := p.1) (i := p.2) hq
      rw [e]; exact List.getElem_mem _) h
    obtain ⟨k1, k2, k3⟩ := outer_spec ss _ (fun q hq => hp q (List.mem_cons_of_mem _ hq)) h1
    refine ⟨k1, fun e he => k2 e (h2 e he), fun q hq m hm hc => ?_⟩
    rcases List.mem_cons.1 hq with rfl | hq
    · obtain ⟨i, hi, e⟩ := List.getElem_of_mem hm
      have hz : (m, i) ∈ ms.zipIdx := by
        rw [List.mk_mem_zipIdx_iff_getElem?, List.getElem?_eq_getElem hi, e]
      obtain ⟨e, he, hk⟩ := h3 (m, i) hz hc
      exact ⟨e, k2 e he, hk⟩
    · exact k3 q hq m hm hc

theorem take_spec {d : List (Int × Nat × Metal)} (h : d.Pairwise fun a b => a.1 < b.1) (n : Nat) {e : Int × Nat × Metal} (he : e ∈ d) :
    e ∈ d.take n ∨ ((d.take n).length = n ∧ ∀ t ∈ d.take n, t.1 < e.1) := by
  rw [← List.take_append_drop n d] at he h
  rcases List.mem_append.1 he with he | he
  · exact Or.inl he
  · refine Or.inr ⟨?_, fun t ht => (List.pairwise_append.1 h).2.2 t ht e he⟩
    have : 0 < (d.drop n).length := List.length_pos_of_mem he
    rw [List.length_drop] at this
    rw [List.length_take]
    omega

/-! ## The theorems -/

/-- C150: the sources are the contacts of the pin. The targets are at most seven metals of the lowest layer of the grid, with growing distances from some contact of the pin. For each contact and each metal
of the lowest layer there is a target at the same distance, unless there are seven targets that are all nearer. -/
theorem C150_targets_partial (pin : List Sink) (ms : List Metal) (hl : ∀ m ∈ ms, m.layer < 2147483647) :
    (setSrcDest pin ms).1 = pin ∧ ∃ T : List (Int × Metal), (setSrcDest pin ms).2 = T.map (fun t => (⟨t.2.layer, t.2.rect⟩ : Sink)) ∧ T.length ≤ 7 ∧ T.Pairwise (fun a b => a.1 < b.1)
      ∧ (∀ t ∈ T, OnLowest ms t.2 ∧ ∃ c ∈ pin, t.1 = Dist (Mid c.rect) (Mid t.2.line))
      ∧ ∀ c ∈ pin, ∀ m, OnLowest ms m → (∃ t ∈ T, t.1 = Dist (Mid c.rect) (Mid m.line)) ∨ (T.length = 7 ∧ ∀ t ∈ T, t.1 < Dist (Mid c.rect) (Mid m.line)) := by
  obtain ⟨h1, -, h3⟩ := outer_spec (pin := pin) (ms := ms) pin [] (fun _ h => h) ⟨List.Pairwise.nil, by simp⟩
  change Good pin ms (distPair pin ms) at h1
  refine ⟨rfl, ((distPair pin ms).take 7).map fun e => (e.1, e.2.2), ?_, ?_, ?_, ?_, ?_⟩
  · rw [List.map_map]; rfl
  · rw [List.length_map]; exact List.length_take_le 7 _
  · rw [List.pairwise_map]
    exact h1.sorted.sublist (List.take_sublist 7 _)
  · intro t ht
    obtain ⟨e, he, rfl⟩ := List.mem_map.1 ht
    obtain ⟨s, hs, a, b, c⟩ := h1.from' e (List.mem_of_mem_take he)
    exact ⟨(lowest_iff hl a).1 b, s, hs, c.trans (dis_eq s e.2.2)⟩
  · intro c hc m hm
    obtain ⟨e, he, hk⟩ := h3 c hc m hm.1 ((lowest_iff hl hm.1).2 hm)
    rw [dis_eq] at hk
    rcases take_spec h1.sorted 7 he with h | ⟨ha, hb⟩
    · exact Or.inl ⟨(e.1, e.2.2), List.mem_map.2 ⟨e, h, rfl⟩, hk⟩
    · refine Or.inr ⟨by rw [List.length_map]; exact ha, fun t ht => ?_⟩
      obtain ⟨u, hu, rfl⟩ := List.mem_map.1 ht
      rw [← hk]
      exact hb u hu

/-- C150: two metals at the same distance, one of which is not a target though there are not seven. -/
theorem C150_violated : ∃ pin ms, (∀ m ∈ ms, OnLowest ms m) ∧ ms.length = 2 ∧ ∃ m ∈ ms, (⟨m.layer, m.rect⟩ : Sink) ∉ (setSrcDest pin ms).2 := by
  refine ⟨[⟨0, ⟨10, 0, 10, 0⟩⟩], [⟨2, ⟨0, 0, 0, 0⟩, ⟨0, 0, 0, 0⟩⟩, ⟨2, ⟨20, 0, 20, 0⟩, ⟨20, 0, 20, 0⟩⟩], ?_, rfl, ⟨2, ⟨20, 0, 20, 0⟩, ⟨20, 0, 20, 0⟩⟩, by decide, by decide +kernel⟩
  unfold OnLowest
  decide

theorem inGrid_iff (g : List Sink) (c : Sink) : inGrid g c = true ↔ ∃ m ∈ g, Within c m := by
  unfold inGrid Within
  simp only [List.any_eq_true, Bool.and_eq_true, decide_eq_true_eq]
  refine exists_congr fun m => and_congr Iff.rfl ?_
  constructor
  · rintro ⟨⟨⟨⟨a, b⟩, c⟩, d⟩, e⟩
    exact ⟨a.symm, b, c, d, e⟩
  · rintro ⟨a, b, c, d, e⟩
    exact ⟨⟨⟨⟨a.symm, b⟩, c⟩, d⟩, e⟩

theorem mem_setIns {c x : Sink} {l : List Sink} : x ∈ setIns c l ↔ x = c ∨ x ∈ l := by
  unfold setIns
  split
  · rename_i h
    exact ⟨Or.inr, fun hx => hx.elim (fun e => e ▸ h) id⟩
  · rw [List.mem_append, List.mem_singleton, or_comm]

theorem mem_viaIns {M : Model} {vdd gnd l : List Sink} {v : Via} {x : Sink} :
    x ∈ viaIns M vdd gnd l v ↔ x ∈ l ∨ (x = Lower M v ∧ ¬∃ m ∈ vdd, Within x m) ∨ (x = Upper M v ∧ ¬∃ m ∈ gnd, Within x m) := by
  have e1 : (⟨v.layer, at' (M.lower v.layer) v.x v.y⟩ : Sink) = Lower M v := rfl
  have e2 : (⟨v.layer + 1, at' (M.upper v.layer) v.x v.y⟩ : Sink) = Upper M v := rfl
  have k : ∀ (g : List Sink) (c : Sink) (l : List Sink), x ∈ (if !inGrid g c then setIns c l else l) ↔ x ∈ l ∨ (x = c ∧ ¬∃ m ∈ g, Within x m) := by
    intro g c l
    by_cases hg : inGrid g c = true
    · rw [if_neg (by simp [hg])]
      refine ⟨Or.inl, fun h => h.elim id fun h' => ?_⟩
      obtain ⟨rfl, h2⟩ := h'
      exact absurd ((inGrid_iff g x).1 hg) h2
    · rw [if_pos (by simpa using hg), mem_setIns, or_comm]
      refine or_congr Iff.rfl ⟨fun h => ⟨h, ?_⟩, fun h => h.1⟩
      subst h
      exact fun h => hg ((inGrid_iff g x).2 h)
  unfold viaIns
  simp only [e1, e2, redundant, if_true, Bool.false_eq_true, if_false]
  rw [k gnd, k vdd, or_assoc]

theorem mem_path {x : Sink} : ∀ (path l : List Sink), x ∈ path.foldl (fun l c => setIns c l) l ↔ x ∈ l ∨ x ∈ path
  | [], l => by simp
  | c :: path, l => by
    rw [List.foldl_cons, mem_path path, mem_setIns, List.mem_cons]
    tauto

theorem mem_vias {M : Model} {vdd gnd : List Sink} {x : Sink} : ∀ (vias : List Via) (l : List Sink),
    x ∈ vias.foldl (viaIns M vdd gnd) l ↔ x ∈ l ∨ ∃ v ∈ vias, (x = Lower M v ∧ ¬∃ m ∈ vdd, Within x m) ∨ (x = Upper M v ∧ ¬∃ m ∈ gnd, Within x m)
  | [], l => by simp
  | v :: vias, l => by
    rw [List.foldl_cons, mem_vias vias, mem_viaIns]
    simp only [List.mem_cons, exists_eq_or_imp, or_assoc]

/-- C151: what the contacts are after the call: those before, the metals of the net, the lower pads not within the grid of the power net and the upper pads not within that of the ground net. -/
theorem C151_contacts_partial (M : Model) (vdd gnd path : List Sink) (vias : List Via) (flag : Bool) (l : List Sink) (c : Sink) :
    c ∈ insertContacts M vdd gnd path vias flag l ↔ c ∈ l ∨ c ∈ path ∨ ∃ v ∈ vias, (c = Lower M v ∧ ¬∃ m ∈ vdd, Within c m) ∨ (c = Upper M v ∧ ¬∃ m ∈ gnd, Within c m) := by
  unfold insertContacts
  rw [mem_vias, mem_path, or_assoc]

/-- C151, if the pads on the side that is tested against the other grid lie in both grids or in none: the contacts are the wanted ones. -/
theorem C151_wanted_partial (M : Model) (vdd gnd path : List Sink) (vias : List Via) (flag : Bool) (c : Sink)
    (h : ∀ v ∈ vias, ((∃ m ∈ vdd, Within (if flag then Upper M v else Lower M v) m) ↔ ∃ m ∈ gnd, Within (if flag then Upper M v else Lower M v) m)) :
    c ∈ insertContacts M vdd gnd path vias flag [] ↔ Wanted M (if flag then vdd else gnd) path vias c := by
  rw [C151_contacts_partial]
  unfold Wanted
  simp only [List.not_mem_nil, false_or]
  refine or_congr Iff.rfl (exists_congr fun v => and_congr_right fun hv => ?_)
  have hv' := h v hv
  cases flag with
  | true =>
    simp only [if_true] at hv' ⊢
    constructor
    · rintro (⟨rfl, h1⟩ | ⟨rfl, h1⟩)
      · exact ⟨Or.inl rfl, h1⟩
      · exact ⟨Or.inr rfl, fun h2 => h1 (hv'.1 h2)⟩
    · rintro ⟨rfl | rfl, h1⟩
      · exact Or.inl ⟨rfl, h1⟩
      · exact Or.inr ⟨rfl, fun h2 => h1 (hv'.2 h2)⟩
  | false =>
    simp only [Bool.false_eq_true, if_false] at hv' ⊢
    constructor
    · rintro (⟨rfl, h1⟩ | ⟨rfl, h1⟩)
      · exact ⟨Or.inl rfl, fun h2 => h1 (hv'.2 h2)⟩
      · exact ⟨Or.inr rfl, h1⟩
    · rintro ⟨rfl | rfl, h1⟩
      · exact Or.inl ⟨rfl, fun h2 => h1 (hv'.1 h2)⟩
      · exact Or.inr ⟨rfl, h1⟩

def exModel : Model := ⟨fun _ => ⟨-1, -1, 1, 1⟩, fun _ => ⟨-2, -2, 2, 2⟩⟩

/-- C151: for the power net an upper pad within the power grid is not left out, and one within the ground grid is. -/
theorem C151_violated : (∃ vdd c, c ∈ insertContacts exModel vdd [] [] [⟨2, 0, 0⟩] true [] ∧ ¬Wanted exModel vdd [] [⟨2, 0, 0⟩] c)
    ∧ ∃ gnd c, c ∉ insertContacts exModel [] gnd [] [⟨2, 0, 0⟩] true [] ∧ Wanted exModel [] [] [⟨2, 0, 0⟩] c := by
  refine ⟨⟨[⟨3, ⟨-5, -5, 5, 5⟩⟩], ⟨3, ⟨-2, -2, 2, 2⟩⟩, by decide +kernel, ?_⟩, [⟨3, ⟨-5, -5, 5, 5⟩⟩], ⟨3, ⟨-2, -2, 2, 2⟩⟩, by decide +kernel, ?_⟩
  · rintro (h | ⟨v, hv, -, h⟩)
    · simp at h
    · exact h ⟨_, List.mem_singleton.2 rfl, by unfold Within; decide⟩
  · exact Or.inr ⟨⟨2, 0, 0⟩, List.mem_singleton.2 rfl, Or.inr (by decide +kernel), by simp⟩

/-- The hypothesis of `C151_wanted_partial` for a pad that is within the power grid on the lower side and free on the upper one. -/
example : ∀ v ∈ [(⟨2, 0, 0⟩ : Via)], ((∃ m ∈ [(⟨2, ⟨-5, -5, 5, 5⟩⟩ : Sink)], Within (if true then Upper exModel v else Lower exModel v) m) ↔ ∃ m ∈ ([] : List Sink), Within (if true then Upper exModel v else Lower exModel v) m) := by
  unfold Within
  intro v hv
  rw [List.mem_singleton] at hv
  subst hv
  simp [Upper]

/-- The hypothesis of `C150_targets_partial`, and what comes out. -/
example : (∀ m ∈ ([⟨4, ⟨0, 0, 0, 0⟩, ⟨0, 0, 0, 0⟩⟩, ⟨2, ⟨30, 0, 30, 0⟩, ⟨30, 0, 30, 0⟩⟩, ⟨2, ⟨20, 0, 20, 0⟩, ⟨20, 0, 20, 0⟩⟩] : List Metal), m.layer < 2147483647)
    ∧ (setSrcDest [⟨0, ⟨10, 0, 10, 0⟩⟩] [⟨4, ⟨0, 0, 0, 0⟩, ⟨0, 0, 0, 0⟩⟩, ⟨2, ⟨30, 0, 30, 0⟩, ⟨30, 0, 30, 0⟩⟩, ⟨2, ⟨20, 0, 20, 0⟩, ⟨20, 0, 20, 0⟩⟩]).2 = [⟨2, ⟨20, 0, 20, 0⟩⟩, ⟨2, ⟨30, 0, 30, 0⟩⟩] := by
  decide +kernel

end Verif.PowerTarget

import Verif.Sd.Props
import Verif.Pnr.Subset
import Verif.Hier.HpwlProps

/-!
# Sources and drains are exchanged where they are the wrong way round (C75): theorems
-/

namespace Verif.Sd

open Verif.Sym (Inst Sub Lib find nets getEl isInst isNet isNode users edge neighbors getEl_some getEl_none getEl_of_mem mem_edge mem_users
  isInst_of_mem find_mem foldlM_inv nodes mem_nodes isNode_iff)

section

variable {L : Library} {s : Sub} {power gnd : List String} {setOrd : List String → List String}

theorem kind_unique (hL : Ordered L) {m a b : String} (ha : Kind L m a) (hb : Kind L m b) : a = b := by
  rw [← baseModel_iff hL] at ha hb
  rw [ha] at hb
  exact Option.some.inj hb

theorem isNet_iff {l : List Inst} {x : String} : isNet l x = true ↔ ∃ e ∈ l, ∃ p, (p, x) ∈ e.pins := by
  simp only [isNet, List.any_eq_true, List.contains_iff_mem, mem_nets]

theorem mem_ports (hord : ∀ l : List String, (setOrd l).Perm l) {sup : List String} {x : String} :
    x ∈ setOrd (sup.eraseDups.filter fun p => s.ports.contains p) ↔ x ∈ sup ∧ x ∈ s.ports := by
  rw [(hord _).mem_iff]
  simp

theorem mem_supply (hord : ∀ l : List String, (setOrd l).Perm l) {sup : List String} {x : String} :
    x ∈ (setOrd (sup.eraseDups.filter fun p => s.ports.contains p)).filter (fun n => isNet s.elems n) ↔ Supply s sup x := by
  rw [List.mem_filter, mem_ports hord, isNet_iff, Supply, and_assoc]

theorem supply_nodes {sup : List String} (x : String) (h : Supply s sup x) : x ∈ nodes s.elems := by
  obtain ⟨-, -, e, he, p, hp⟩ := h
  exact mem_nodes.2 (.inr ⟨e, he, mem_nets.2 ⟨p, hp⟩⟩)

/-- What the first traversal finds. -/
theorem power_pass (hg : Good s power gnd) (hord : ∀ l : List String, (setOrd l).Perm l) {fuel : Nat} {hi : List String}
    (hhi : hi = (setOrd (power.eraseDups.filter fun p => s.ports.contains p)).filter fun n => isNet s.elems n) {pp pn : String} {st : Scan}
    (h : scan L s.elems pp pn fuel ⟨hi, hi ++ gnd, []⟩ = some st) :
    (∀ y ∈ st.changes, ∃ x k, Dist (Joined s.elems) (Supply s power) (· ∈ gnd) k x ∧
      Dist (Joined s.elems) (Supply s power) (· ∈ gnd) (k + 1) y ∧ Joined s.elems x y ∧ wrong L s.elems pp pn x y = true) ∧
    ∀ d ∈ s.elems, ∀ k, FromPower s power gnd k d.name → ∃ x j, Dist (Joined s.elems) (Supply s power) (· ∈ gnd) j x ∧
      Dist (Joined s.elems) (Supply s power) (· ∈ gnd) (j + 1) d.name ∧ Joined s.elems x d.name ∧
      (wrong L s.elems pp pn x d.name = true → d.name ∈ st.changes) := by
  have hm : ∀ y, y ∈ hi ↔ Supply s power y := fun y => by rw [hhi]; exact mem_supply hord
  obtain ⟨h1, h2⟩ := scan_spec (src := Supply s power) (bar := (· ∈ gnd)) hg supply_nodes hm
    (fun y => by rw [List.mem_append, hm y]; exact or_comm) h
  exact ⟨h1, fun d hd k hw => h2 d.name k (hg.supplies d hd).2 (fun hc => (hg.supplies d hd).1 hc.1) hw⟩

/-- What the second traversal finds. -/
theorem ground_pass (hg : Good s power gnd) (hord : ∀ l : List String, (setOrd l).Perm l) {fuel : Nat} {lo high : List String}
    (hlo : lo = (setOrd (gnd.eraseDups.filter fun p => s.ports.contains p)).filter fun n => isNet s.elems n)
    (hhigh : high = setOrd (power.eraseDups.filter fun p => s.ports.contains p)) {pp pn : String} {st : Scan}
    (h : scan L s.elems pp pn fuel ⟨lo, lo ++ high, []⟩ = some st) :
    (∀ y ∈ st.changes, ∃ x k, Dist (Joined s.elems) (Supply s gnd) (fun x => x ∈ power ∧ x ∈ s.ports) k x ∧
      Dist (Joined s.elems) (Supply s gnd) (fun x => x ∈ power ∧ x ∈ s.ports) (k + 1) y ∧ Joined s.elems x y ∧
      wrong L s.elems pp pn x y = true) ∧
    ∀ d ∈ s.elems, ∀ k, FromGround s power gnd k d.name →
      ∃ x j, Dist (Joined s.elems) (Supply s gnd) (fun x => x ∈ power ∧ x ∈ s.ports) j x ∧
      Dist (Joined s.elems) (Supply s gnd) (fun x => x ∈ power ∧ x ∈ s.ports) (j + 1) d.name ∧ Joined s.elems x d.name ∧
      (wrong L s.elems pp pn x d.name = true → d.name ∈ st.changes) := by
  have hm : ∀ y, y ∈ lo ↔ Supply s gnd y := fun y => by rw [hlo]; exact mem_supply hord
  obtain ⟨h1, h2⟩ := scan_spec (src := Supply s gnd) (bar := fun x => x ∈ power ∧ x ∈ s.ports) hg supply_nodes hm
    (fun y => by rw [List.mem_append, hm y, hhigh, mem_ports hord]; exact or_comm) h
  exact ⟨h1, fun d hd k hw => h2 d.name k (fun hc => (hg.supplies d hd).1 hc.1) (fun hc => (hg.supplies d hd).2 hc.1) hw⟩

/-- The marked nodes are elements. -/
theorem wrong_elem {l : List Inst} {pp pn x y : String} (h : wrong L l pp pn x y = true) : ∃ d ∈ l, d.name = y := by
  unfold wrong at h
  split at h
  · rename_i b hb
    obtain ⟨d, hd, -⟩ := Option.bind_eq_some_iff.1 hb
    exact ⟨d, getEl_some hd⟩
  · cases h

/-- The cases of a run. -/
theorem defineSD_cases {l' : List Inst} (h : defineSD L setOrd s power gnd = some l') :
    let high := setOrd (power.eraseDups.filter fun p => s.ports.contains p)
    let hi := high.filter fun n => isNet s.elems n
    let lo := (setOrd (gnd.eraseDups.filter fun p => s.ports.contains p)).filter fun n => isNet s.elems n
    (l' = s.elems ∧ (power = [] ∨ gnd = [] ∨ hi = [] ∨ lo = [])) ∨
    ∃ p, scan L s.elems "D" "S" (rounds s.elems hi) ⟨hi, hi ++ gnd, []⟩ = some p ∧ ((l' = s.elems ∧ p.changes = []) ∨
      ∃ n, scan L s.elems "S" "D" (rounds s.elems lo) ⟨lo, lo ++ high, []⟩ = some n ∧
        (setOrd (n.changes.eraseDups.filter fun x => p.changes.contains x)).foldlM swap s.elems = some l') := by
  intro high hi lo
  unfold defineSD at h
  split at h
  · rename_i hc
    cases h
    exact .inl ⟨rfl, by tauto⟩
  · dsimp only at h
    split at h
    · cases h
    · split at h
      · rename_i hc
        cases h
        refine .inl ⟨rfl, ?_⟩
        rcases hc with hc | hc
        · exact .inr (.inr (.inl hc))
        · exact .inr (.inr (.inr hc))
      · obtain ⟨p, hp, h⟩ := Option.bind_eq_some_iff.1 h
        refine .inr ⟨p, hp, ?_⟩
        split at h
        · rename_i hc
          cases h
          exact .inl ⟨rfl, hc⟩
        · obtain ⟨n, hn, h⟩ := Option.bind_eq_some_iff.1 h
          exact .inr ⟨n, hn, h⟩

theorem order_nodup (hord : ∀ l : List String, (setOrd l).Perm l) (a : List String) (f : String → Bool) :
    (setOrd (a.eraseDups.filter f)).Nodup := by
  refine (hord _).nodup_iff.2 (List.Nodup.filter _ ?_)
  exact Hier.nodup_eraseDups _ _ (Nat.le_refl _)

theorem forall₂_same {α : Type} {P : α → α → Prop} {l : List α} (h : ∀ d ∈ l, P d d) : List.Forall₂ P l l := by
  induction l with
  | nil => exact .nil
  | cons a l ih => exact .cons (h a (by simp)) (ih fun d hd => h d (by simp [hd]))

theorem forall₂_map_right {α : Type} {P : α → α → Prop} {f : α → α} {l : List α} (h : ∀ d ∈ l, P d (f d)) : List.Forall₂ P l (l.map f) := by
  induction l with
  | nil => exact .nil
  | cons a l ih => exact .cons (h a (by simp)) (ih fun d hd => h d (by simp [hd]))

/-- The pins of an element that both traversals mark. -/
theorem both_marked (hL : Ordered L) (hg : Good s power gnd) (hord : ∀ l : List String, (setOrd l).Perm l) {f1 f2 : Nat} {hi lo high : List String}
    (hhi : hi = (setOrd (power.eraseDups.filter fun p => s.ports.contains p)).filter fun n => isNet s.elems n)
    (hlo : lo = (setOrd (gnd.eraseDups.filter fun p => s.ports.contains p)).filter fun n => isNet s.elems n)
    (hhigh : high = setOrd (power.eraseDups.filter fun p => s.ports.contains p)) {p n : Scan}
    (hp : scan L s.elems "D" "S" f1 ⟨hi, hi ++ gnd, []⟩ = some p) (hn : scan L s.elems "S" "D" f2 ⟨lo, lo ++ high, []⟩ = some n)
    {d : Inst} (hd : d ∈ s.elems) (h1 : d.name ∈ p.changes) (h2 : d.name ∈ n.changes) :
    ∃ up dn a b, Mos L d up dn ∧ (up, a) ∈ d.pins ∧ (dn, b) ∈ d.pins ∧ NotFarther (FromPower s power gnd) b a ∧
      NotFarther (FromGround s power gnd) a b := by
  obtain ⟨x, k, hx, hy, hj, hw⟩ := (power_pass hg hord hhi hp).1 d.name h1
  obtain ⟨x', k', hx', hy', hj', hw'⟩ := (ground_pass hg hord hlo hhigh hn).1 d.name h2
  obtain ⟨q, hk, hq, hnear⟩ := marked_near hL hg hd hx hy hj hw (hg.supplies d hd).2
  obtain ⟨q', hk', hq', hnear'⟩ := marked_near hL hg hd hx' hy' hj' hw' (fun hc => (hg.supplies d hd).1 hc.1)
  rcases hk with ⟨hk, rfl⟩ | ⟨hk, rfl⟩ <;> rcases hk' with ⟨hk', rfl⟩ | ⟨hk', rfl⟩
  · exact ⟨"S", "D", x', x, .inr ⟨hk, rfl, rfl⟩, hq', hq, hnear "S" x' (.inl rfl) hq', hnear' "D" x (.inr rfl) hq⟩
  · exact absurd (kind_unique hL hk hk') (by decide)
  · exact absurd (kind_unique hL hk hk') (by decide)
  · exact ⟨"D", "S", x', x, .inl ⟨hk, rfl, rfl⟩, hq', hq, hnear "D" x' (.inr rfl) hq', hnear' "S" x (.inl rfl) hq⟩

theorem mos_pins {d : Inst} {up dn a b : String} (hm : Mos L d up dn) (ha : (up, a) ∈ d.pins) (hb : (dn, b) ∈ d.pins) :
    (∃ a, (("D" : String), a) ∈ d.pins) ∧ ∃ b, (("S" : String), b) ∈ d.pins := by
  rcases hm with ⟨-, rfl, rfl⟩ | ⟨-, rfl, rfl⟩
  · exact ⟨⟨a, ha⟩, ⟨b, hb⟩⟩
  · exact ⟨⟨b, hb⟩, ⟨a, ha⟩⟩

/-- **C75.**  The correction leaves an element as it is, or exchanges its source and drain and nothing else.  The latter only for
transistors, and only if the pin that should be towards the ground is not farther from the power than the pin that should be towards
the power, and this pin not farther from the ground than the other one. -/
theorem C75_only (hL : Ordered L) (hg : Good s power gnd) (hord : ∀ l : List String, (setOrd l).Perm l) {l' : List Inst}
    (h : defineSD L setOrd s power gnd = some l') :
    List.Forall₂ (fun d d' => d' = d ∨ (Turned d d' ∧ ∃ up dn a b, Mos L d up dn ∧ (up, a) ∈ d.pins ∧ (dn, b) ∈ d.pins ∧
      NotFarther (FromPower s power gnd) b a ∧ NotFarther (FromGround s power gnd) a b)) s.elems l' := by
  rcases defineSD_cases h with ⟨rfl, -⟩ | ⟨p, hp, ⟨rfl, -⟩ | ⟨n, hn, h⟩⟩
  · exact forall₂_same fun d _ => .inl rfl
  · exact forall₂_same fun d _ => .inl rfl
  · rw [swaps_eq _ hg.names (order_nodup hord _ _) h]
    refine forall₂_map_right fun d hd => ?_
    split
    · rename_i hx
      rw [(hord _).mem_iff, List.mem_filter, List.mem_eraseDups, List.contains_iff_mem] at hx
      have := both_marked hL hg hord rfl rfl rfl hp hn hd hx.2 hx.1
      obtain ⟨up, dn, a, b, hm, ha, hb, h1, h2⟩ := this
      obtain ⟨⟨x, hx⟩, ⟨y, hy⟩⟩ := mos_pins hm ha hb
      exact .inr ⟨turned_turn (hg.pins d hd) hx hy, up, dn, a, b, hm, ha, hb, h1, h2⟩
    · exact .inl rfl

/-- **C75.**  Every transistor is turned round whose pin that should be towards the ground is nearer to the power, and whose pin that
should be towards the power is nearer to the ground. -/
theorem C75_all (hL : Ordered L) (hg : Good s power gnd) (hord : ∀ l : List String, (setOrd l).Perm l) {l' : List Inst}
    (h : defineSD L setOrd s power gnd = some l') :
    List.Forall₂ (fun d d' => ∀ up dn a b, Mos L d up dn → (up, a) ∈ d.pins → (dn, b) ∈ d.pins →
      Nearer (FromPower s power gnd) b a → Nearer (FromGround s power gnd) a b → Turned d d') s.elems l' := by
  -- a walk starts somewhere
  have start : ∀ {R : String → String → Prop} {src bar : String → Prop} {k : Nat} {x : String}, Walk R src bar k x → ∃ y, src y := by
    intro R src bar k x hw
    induction hw with
    | zero h => exact ⟨_, h⟩
    | step _ _ _ ih => exact ih
  have key1 : ∀ (p : Scan), scan L s.elems "D" "S"
      (rounds s.elems ((setOrd (power.eraseDups.filter fun p => s.ports.contains p)).filter fun n => isNet s.elems n))
      ⟨(setOrd (power.eraseDups.filter fun p => s.ports.contains p)).filter fun n => isNet s.elems n,
        ((setOrd (power.eraseDups.filter fun p => s.ports.contains p)).filter fun n => isNet s.elems n) ++ gnd, []⟩ = some p →
      ∀ d ∈ s.elems, ∀ up dn a b, Mos L d up dn → (up, a) ∈ d.pins → (dn, b) ∈ d.pins → Nearer (FromPower s power gnd) b a →
        d.name ∈ p.changes := by
    intro p hp d hd up dn a b hm ha hb hnr
    have hsc := (power_pass hg hord rfl hp).2 d hd
    rcases hm with ⟨hk, rfl, rfl⟩ | ⟨hk, rfl, rfl⟩
    · exact near_marked hL hg hd (.inl rfl) (by decide) hb ha (.inr ⟨hk, rfl⟩) hnr (hg.supplies d hd).2 hsc
    · exact near_marked hL hg hd (.inr rfl) (by decide) hb ha (.inl ⟨hk, rfl⟩) hnr (hg.supplies d hd).2 hsc
  rcases defineSD_cases h with ⟨rfl, hc⟩ | ⟨p, hp, ⟨rfl, hc⟩ | ⟨n, hn, h⟩⟩
  · refine forall₂_same fun d _ up dn a b _ _ _ h1 h2 => ?_
    exfalso
    obtain ⟨k, hw, -⟩ := h1
    obtain ⟨k', hw', -⟩ := h2
    obtain ⟨y, hy⟩ := start hw
    obtain ⟨y', hy'⟩ := start hw'
    rcases hc with rfl | rfl | hc | hc
    · exact absurd hy.1 (by simp)
    · exact absurd hy'.1 (by simp)
    · have := (mem_supply hord).2 hy
      rw [hc] at this
      simp at this
    · have := (mem_supply hord).2 hy'
      rw [hc] at this
      simp at this
  · refine forall₂_same fun d hd up dn a b hm ha hb h1 _ => ?_
    have := key1 p hp d hd up dn a b hm ha hb h1
    rw [hc] at this
    simp at this
  · rw [swaps_eq _ hg.names (order_nodup hord _ _) h]
    refine forall₂_map_right fun d hd up dn a b hm ha hb h1 h2 => ?_
    have m1 := key1 p hp d hd up dn a b hm ha hb h1
    have hsc := (ground_pass hg hord rfl rfl hn).2 d hd
    have m2 : d.name ∈ n.changes := by
      rcases hm with ⟨hk, rfl, rfl⟩ | ⟨hk, rfl, rfl⟩
      · exact near_marked hL hg hd (.inr rfl) (by decide) ha hb (.inr ⟨hk, rfl⟩) h2 (fun hc => (hg.supplies d hd).1 hc.1) hsc
      · exact near_marked hL hg hd (.inl rfl) (by decide) ha hb (.inl ⟨hk, rfl⟩) h2 (fun hc => (hg.supplies d hd).1 hc.1) hsc
    rw [if_pos (by rw [(hord _).mem_iff, List.mem_filter, List.mem_eraseDups, List.contains_iff_mem]; exact ⟨m2, m1⟩)]
    obtain ⟨⟨x, hx⟩, ⟨y, hy⟩⟩ := mos_pins hm ha hb
    exact turned_turn (hg.pins d hd) hx hy

/-! ## The correction ends -/

theorem base_some (hL : Ordered L) (hc : Complete L s) (hg : Good s power gnd) {e : Inst} (he : e ∈ s.elems) : ∃ b, baseOf L s.elems e.name = some b := by
  obtain ⟨rank, h1, h2⟩ := hL.levels
  simp only [baseOf, getEl_of_mem hg.names he, Option.bind_some]
  refine base_exists h2 hc.below _ (fun c hc' hcm => ?_) (by omega) (hc.here e he)
  have := h1 c hc'
  rw [hcm] at this
  omega

theorem neighbors_nodes {l : List Inst} {x y : String} (h : y ∈ neighbors l x) : y ∈ nodes l := by
  unfold neighbors at h
  split at h
  · rename_i e he
    exact mem_nodes.2 (.inr ⟨e, (getEl_some he).1, by simpa using h⟩)
  · obtain ⟨e, he, rfl⟩ := List.mem_map.1 h
    exact mem_nodes.2 (.inl ⟨e, (mem_users.1 he).1, rfl⟩)

theorem nextLevel_some (hL : Ordered L) (hc : Complete L s) (hg : Good s power gnd) {x : String} (hx : x ∈ nodes s.elems) :
    ∃ ns, nextLevel L s.elems x = some ns ∧ ∀ y ∈ ns, y ∈ nodes s.elems := by
  unfold nextLevel
  split
  · rename_i hi
    obtain ⟨e, he⟩ := Option.isSome_iff_exists.1 hi
    obtain ⟨hel, rfl⟩ := getEl_some he
    obtain ⟨b, hb⟩ := base_some hL hc hg hel
    rw [hb]
    refine ⟨_, rfl, fun y hy => ?_⟩
    dsimp only at hy
    split at hy
    · exact neighbors_nodes (List.mem_filter.1 hy).1
    · exact neighbors_nodes hy
  · rename_i hi
    have hnet : isNet s.elems x = true := by
      have := isNode_iff.2 hx
      rw [isNode, Bool.or_eq_true] at this
      exact this.resolve_left hi
    rw [if_pos hnet]
    have hnone : getEl s.elems x = none := by
      simpa [isInst] using hi
    have hm : ∃ bs, ((neighbors s.elems x).mapM fun y => baseOf L s.elems y) = some bs := by
      refine Option.isSome_iff_exists.1 (Pnr.mapM_isSome fun y hy => ?_)
      simp only [neighbors, hnone, List.mem_map] at hy
      obtain ⟨e, he, rfl⟩ := hy
      obtain ⟨b, hb⟩ := base_some hL hc hg (mem_users.1 he).1
      rw [hb]; rfl
    obtain ⟨bs, hbs⟩ := hm
    rw [hbs]
    exact ⟨_, rfl, fun y hy => neighbors_nodes hy⟩

/-- Nodes in the queue and nodes not yet marked. -/
def left (l : List Inst) (st : Scan) : Nat := st.queue.length + ((nodes l).filter fun y => !st.traversed.contains y).length

theorem scanStep_some (hL : Ordered L) (hc : Complete L s) (hg : Good s power gnd) {pp pn x y : String} (hy : y ∈ nodes s.elems) {st : Scan}
    (hq : ∀ z ∈ st.queue, z ∈ nodes s.elems) :
    ∃ st', scanStep L s.elems pp pn x st y = some st' ∧ left s.elems st' ≤ left s.elems st ∧ ∀ z ∈ st'.queue, z ∈ nodes s.elems := by
  unfold scanStep
  dsimp only
  split
  · exact ⟨st, rfl, Nat.le_refl _, hq⟩
  · rename_i hcond
    have hb : ∃ b, (if isInst s.elems y then baseOf L s.elems y else if isNet s.elems y then some "net" else none) = some b := by
      split
      · rename_i hi
        obtain ⟨e, he⟩ := Option.isSome_iff_exists.1 hi
        obtain ⟨hel, rfl⟩ := getEl_some he
        exact base_some hL hc hg hel
      · rename_i hi
        have := isNode_iff.2 hy
        rw [isNode, Bool.or_eq_true] at this
        rw [if_pos (this.resolve_left hi)]
        exact ⟨_, rfl⟩
    obtain ⟨b, hb⟩ := hb
    rw [hb]
    refine ⟨_, rfl, ?_, fun z hz => ?_⟩
    · rw [Bool.or_eq_true, not_or] at hcond
      have hnt : y ∉ st.traversed := by simpa using hcond.2
      simp only [left, List.length_append, List.length_singleton]
      have : ((nodes s.elems).filter fun z => !(st.traversed ++ [y]).contains z).length <
          ((nodes s.elems).filter fun z => !st.traversed.contains z).length := by
        have h1 : ((nodes s.elems).filter fun z => !(st.traversed ++ [y]).contains z) =
            ((nodes s.elems).filter fun z => !st.traversed.contains z).filter fun z => decide (z ≠ y) := by
          rw [List.filter_filter]
          refine List.filter_congr fun z _ => ?_
          by_cases hzy : z = y <;> simp [hzy]
        rw [h1]
        refine List.length_filter_lt_length_iff_exists.2 ⟨y, ?_, by simp⟩
        simp [hy, hnt]
      omega
    · rcases List.mem_append.1 hz with hz | hz
      · exact hq z hz
      · simp only [List.mem_singleton] at hz
        exact hz ▸ hy

theorem scanFold_some (hL : Ordered L) (hc : Complete L s) (hg : Good s power gnd) {pp pn x : String} : ∀ (ns : List String) {st : Scan},
    (∀ y ∈ ns, y ∈ nodes s.elems) → (∀ z ∈ st.queue, z ∈ nodes s.elems) →
    ∃ st', ns.foldlM (scanStep L s.elems pp pn x) st = some st' ∧ left s.elems st' ≤ left s.elems st ∧ ∀ z ∈ st'.queue, z ∈ nodes s.elems := by
  intro ns
  induction ns with
  | nil => intro st _ hq; exact ⟨st, rfl, Nat.le_refl _, hq⟩
  | cons y ns ih =>
    intro st hns hq
    obtain ⟨st1, h1, h2, h3⟩ := scanStep_some hL hc hg (pp := pp) (pn := pn) (x := x) (hns y (by simp)) hq
    obtain ⟨st2, h4, h5, h6⟩ := ih (fun z hz => hns z (by simp [hz])) h3
    refine ⟨st2, ?_, by omega, h6⟩
    rw [List.foldlM_cons, h1]
    exact h4

theorem scan_some (hL : Ordered L) (hc : Complete L s) (hg : Good s power gnd) {pp pn : String} : ∀ (fuel : Nat) {st : Scan},
    (∀ z ∈ st.queue, z ∈ nodes s.elems) → left s.elems st < fuel → ∃ st', scan L s.elems pp pn fuel st = some st' := by
  intro fuel
  induction fuel with
  | zero => intro st _ h; omega
  | succ fuel ih =>
    intro st hq hl
    rw [scan]
    split
    · exact ⟨st, rfl⟩
    · rename_i x q hxq
      obtain ⟨ns, h1, h2⟩ := nextLevel_some hL hc hg (hq x (by simp [hxq]))
      obtain ⟨st1, h3, h4, h5⟩ := scanFold_some hL hc hg (pp := pp) (pn := pn) (x := x) ns (st := { st with queue := q }) h2
        (fun z hz => hq z (by rw [hxq]; exact List.mem_cons_of_mem _ hz))
      rw [h1]
      simp only [Option.bind_some]
      rw [h3]
      refine ih h5 ?_
      simp only [left, hxq, List.length_cons] at hl h4 ⊢
      omega

theorem left_start (l : List Inst) (q tr ch : List String) : left l ⟨q, tr, ch⟩ < rounds l q := by
  have h1 : ((nodes l).filter fun y => !tr.contains y).length ≤ (nodes l).length := List.length_filter_le _ _
  have h2 : (nodes l).length = l.length + (l.map fun e => e.pins.length).sum := by
    simp [nodes, nets]
  simp only [left, rounds]
  omega

/-- **C75.**  The correction ends and does not fail, if all models are in the library and the ports are as the constraints say. -/
theorem C75_ends (hL : Ordered L) (hc : Complete L s) (hg : Good s power gnd) (hord : ∀ l : List String, (setOrd l).Perm l)
    (hpow : ∃ p ∈ power, p ∈ s.ports) (hgnd : ∃ p ∈ gnd, p ∈ s.ports) : ∃ l', defineSD L setOrd s power gnd = some l' := by
  unfold defineSD
  split
  · exact ⟨_, rfl⟩
  · dsimp only
    rw [if_neg]
    · split
      · exact ⟨_, rfl⟩
      · obtain ⟨p, hp⟩ := scan_some (pp := "D") (pn := "S") hL hc hg
          (rounds s.elems ((setOrd (power.eraseDups.filter fun p => s.ports.contains p)).filter fun n => isNet s.elems n))
          (st := ⟨(setOrd (power.eraseDups.filter fun p => s.ports.contains p)).filter fun n => isNet s.elems n,
            ((setOrd (power.eraseDups.filter fun p => s.ports.contains p)).filter fun n => isNet s.elems n) ++ gnd, []⟩)
          (fun z hz => supply_nodes z ((mem_supply hord).1 hz)) (left_start _ _ _ _)
        obtain ⟨n, hn⟩ := scan_some (pp := "S") (pn := "D") hL hc hg
          (rounds s.elems ((setOrd (gnd.eraseDups.filter fun p => s.ports.contains p)).filter fun n => isNet s.elems n))
          (st := ⟨(setOrd (gnd.eraseDups.filter fun p => s.ports.contains p)).filter fun n => isNet s.elems n,
            ((setOrd (gnd.eraseDups.filter fun p => s.ports.contains p)).filter fun n => isNet s.elems n) ++
              setOrd (power.eraseDups.filter fun p => s.ports.contains p), []⟩)
          (fun z hz => supply_nodes z ((mem_supply hord).1 hz)) (left_start _ _ _ _)
        rw [hp]
        simp only [Option.bind_some]
        split
        · exact ⟨_, rfl⟩
        · rw [hn]
          simp only [Option.bind_some]
          refine swaps_some _ hg.names hg.pins (order_nodup hord _ _) fun x hx => ?_
          rw [(hord _).mem_iff, List.mem_filter, List.mem_eraseDups, List.contains_iff_mem] at hx
          obtain ⟨y, k, -, -, -, hw⟩ := (power_pass hg hord rfl hp).1 x hx.2
          obtain ⟨d, hd, rfl⟩ := wrong_elem hw
          obtain ⟨up, dn, a, b, hm, ha, hb, -⟩ := both_marked hL hg hord rfl rfl rfl hp hn hd hx.2 hx.1
          exact ⟨d, hd, rfl, mos_pins hm ha hb⟩
    · rw [not_or]
      constructor
      · obtain ⟨x, h1, h2⟩ := hpow
        intro hnil
        have := (mem_ports (s := s) hord).2 ⟨h1, h2⟩
        rw [hnil] at this
        simp at this
      · obtain ⟨x, h1, h2⟩ := hgnd
        intro hnil
        have := (mem_ports (s := s) hord).2 ⟨h1, h2⟩
        rw [hnil] at this
        simp at this

end

/-! ## Examples -/

/-- Two NMOS in series and a PMOS; the upper NMOS `M1` and the PMOS `M3` are the wrong way round. -/
def exSub : Sub :=
  ⟨"TOP", ["VDD", "VSS", "IN", "OUT"],
    [⟨"M1", "NFET", [("D", "MID"), ("G", "IN"), ("S", "OUT"), ("B", "VSS")], []⟩,
     ⟨"M2", "NFET", [("D", "MID"), ("G", "IN"), ("S", "VSS"), ("B", "VSS")], []⟩,
     ⟨"M3", "PFET", [("D", "VDD"), ("G", "IN"), ("S", "OUT"), ("B", "VDD")], []⟩]⟩

def exLib : Library := ⟨[exSub], [("NMOS", none), ("PMOS", none), ("NFET", some "NMOS"), ("PFET", some "PMOS")]⟩

theorem exLib_ordered : Ordered exLib :=
  ⟨by decide, fun _ => 0, by decide, by decide⟩

theorem exSub_complete : Complete exLib exSub := ⟨by decide, by decide⟩

theorem exSub_good : Good exSub ["VDD"] ["VSS"] := by
  refine ⟨by decide, by decide, fun e he d hd p n hp => ?_, by decide⟩
  have : ∀ e ∈ exSub.elems, ∀ d ∈ exSub.elems, ∀ pn ∈ d.pins, pn.2 ≠ e.name := by decide
  exact this e he d hd (p, n) hp

/-- The hypotheses can be met; both are turned round and the third transistor is not. -/
example : (defineSD exLib id exSub ["VDD"] ["VSS"]).map (fun l => l.map fun e => (e.name, e.pins)) = some
    [("M1", [("D", "OUT"), ("G", "IN"), ("S", "MID"), ("B", "VSS")]), ("M2", [("D", "MID"), ("G", "IN"), ("S", "VSS"), ("B", "VSS")]),
     ("M3", [("D", "OUT"), ("G", "IN"), ("S", "VDD"), ("B", "VDD")])] := by decide +kernel

example : ∃ l', defineSD exLib id exSub ["VDD"] ["VSS"] = some l' :=
  C75_ends exLib_ordered exSub_complete exSub_good (fun l => List.Perm.refl l) ⟨"VDD", by decide, by decide⟩ ⟨"VSS", by decide, by decide⟩

/-- `M3` is the wrong way round in the sense of `C75_all`: its drain is at the power, its source is not. -/
example : Nearer (FromPower exSub ["VDD"] ["VSS"]) "VDD" "OUT" := by
  refine ⟨0, .zero ⟨by decide, by decide, ⟨"M3", "PFET", [("D", "VDD"), ("G", "IN"), ("S", "OUT"), ("B", "VDD")], []⟩, by decide, "D", by decide⟩, ?_⟩
  intro j hj hw
  obtain rfl : j = 0 := by omega
  cases hw with
  | zero h => exact absurd h.1 (by decide)

/-! ## A violation -/

/-- A subcircuit with a single transistor whose gate is on the port D. -/
def wSub : Sub := ⟨"W", ["D", "G", "S", "B"], [⟨"M0", "NMOS", [("D", "G"), ("G", "D"), ("S", "S"), ("B", "B")], []⟩]⟩

def wTop : Sub := ⟨"TOP", ["VDD", "VSS", "IN"], [⟨"X", "W", [("D", "VSS"), ("G", "IN"), ("S", "VDD"), ("B", "VSS")], []⟩]⟩

def wLib : Library := ⟨[wSub, wTop], [("NMOS", none)]⟩

/-- **C75 is violated.**  A subcircuit with a single transistor is taken for this transistor whatever its ports are connected to.  Here
the transistor's gate is on the port D; it was on VSS and is on VDD afterwards. -/
theorem C75_violated_wrapper : ∃ (L : Library) (s c : Sub) (power gnd : List String) (x m x' : Inst), Ordered L ∧ Complete L s ∧
    Good s power gnd ∧ s.elems = [x] ∧ c ∈ L.subs ∧ x.model = c.name ∧ c.elems = [m] ∧ ("G", "D") ∈ m.pins ∧
    defineSD L id s power gnd = some [x'] ∧ ("D", "VSS") ∈ x.pins ∧ ("D", "VDD") ∈ x'.pins := by
  refine ⟨wLib, wTop, wSub, ["VDD"], ["VSS"], ⟨"X", "W", [("D", "VSS"), ("G", "IN"), ("S", "VDD"), ("B", "VSS")], []⟩,
    ⟨"M0", "NMOS", [("D", "G"), ("G", "D"), ("S", "S"), ("B", "B")], []⟩,
    ⟨"X", "W", [("D", "VDD"), ("G", "IN"), ("S", "VSS"), ("B", "VSS")], []⟩, ⟨by decide, fun n => if n = "TOP" then 1 else 0, by decide, by decide⟩,
    ⟨by decide, by decide⟩, ⟨by decide, by decide, fun e he d hd p n hp => ?_, by decide⟩, rfl, by simp [wLib], rfl, rfl, by decide, by decide +kernel,
    by decide, by decide⟩
  have : ∀ e ∈ wTop.elems, ∀ d ∈ wTop.elems, ∀ pn ∈ d.pins, pn.2 ≠ e.name := by decide
  exact this e he d hd (p, n) hp

end Verif.Sd

import Verif.Pnr.LeafVar

/-!
# C111: power pins are lent to the placer and taken back

Model of `AddingPowerPins` (`PlaceRouteHierFlow/PnRDB/PnRdatabase.cpp` 1418-1436) and `Extract_RemovePowerPins` (1439-1510), which are
called before and after a module is placed (`align/pnr/placer.py` 24 and 64). What is placed in between is a parameter.

Simplifications: a pin has its name, net and shapes without vias; a shape is a rectangle on a layer. An assertion that fails and an
index out of range give `none`. All indices are natural numbers but for that of the block of a terminal, which is -1 (1573): these
connections have a constructor of their own.
-/

namespace Verif.PowerPins

open Verif.Load (mapM_rel rel_comp mapM_some)

/-- `PnRDB::contact`: layer and rectangle. -/
structure Shape where
  layer : String
  x0 : Int
  y0 : Int
  x1 : Int
  y1 : Int
deriving DecidableEq

/-- `PnRDB::pin`. -/
structure Pin where
  name : String
  net : Int
  contacts : List Shape
deriving DecidableEq

/-- `PnRDB::block`. -/
structure Inst where
  pins : List Pin
  dummies : List Pin
  metals : List Shape
deriving DecidableEq

/-- `PnRDB::blockComplex`. -/
structure Block where
  insts : List Inst
  sel : Nat
deriving DecidableEq

/-- `PnRDB::connectNode`. -/
inductive Conn
  | pin (iter iter2 : Nat)
  | term (iter : Nat)
deriving DecidableEq

/-- `PnRDB::PowerNet`; a dummy connection is the index of a power pin and of a block. -/
structure Power where
  name : String
  power : Bool
  connected : List Conn
  dummy : List (Nat × Nat)
  pins : List Pin
deriving DecidableEq

/-- `PnRDB::hierNode`; of a guard ring only the pins are used. -/
structure Node where
  blocks : List Block
  powers : List Power
  guards : List (List Pin)
deriving DecidableEq

/-! ## `AddingPowerPins` -/

/-- 1427-1432: one variant. -/
def lendInst (iter : Nat) (v : Inst) : Option Inst :=
  (v.dummies[iter]?).map fun d => { v with pins := v.pins ++ [{ d with net := -2 }] }

/-- 1421-1433: one dummy connection; its new index is the one in the last variant. -/
def lend (bs : List Block) (c : Nat × Nat) : Option (List Block × (Nat × Nat)) := do
  let b ← bs[c.2]?
  let vs ← b.insts.mapM (lendInst c.1)
  some (bs.set c.2 { b with insts := vs }, ((b.insts.getLast?.map fun v => v.pins.length).getD c.1, c.2))

/-- 1420-1434: all dummy connections of a net. -/
def lendAll : List Block → List (Nat × Nat) → Option (List Block × List (Nat × Nat))
  | bs, [] => some (bs, [])
  | bs, c :: cs => do
    let r ← lend bs c
    let q ← lendAll r.1 cs
    some (q.1, r.2 :: q.2)

/-- 1419-1435: all power nets. -/
def addPowers : List Block → List Power → Option (List Block × List Power)
  | bs, [] => some (bs, [])
  | bs, p :: ps => do
    let r ← lendAll bs p.dummy
    let q ← addPowers r.1 ps
    some (q.1, { p with dummy := r.2 } :: q.2)

/-- `AddingPowerPins` (1418-1436). -/
def add (n : Node) : Option Node := (addPowers n.blocks n.powers).map fun r => { n with blocks := r.1, powers := r.2 }

/-! ## `Extract_RemovePowerPins` -/

/-- The selected variant of a block. -/
def chosen (bs : List Block) (k : Nat) : Option Inst := do
  let b ← bs[k]?
  b.insts[b.sel]?

/-- 1445-1451. -/
def connPin (bs : List Block) : Conn → Option Pin
  | .pin i k => do
    let v ← chosen bs k
    v.pins[i]?
  | .term _ => none

/-- 1453-1462; a pin that is not there is an empty one. -/
def dummyPin (bs : List Block) (c : Nat × Nat) : Option Pin :=
  (chosen bs c.2).map fun v => (v.pins[c.1]?).getD { name := "", net := -1, contacts := [] }

/-- 1442-1463: one power net. -/
def extractNet (bs : List Block) (p : Power) : Option Power := do
  let cs ← p.connected.mapM (connPin bs)
  let ds ← p.dummy.mapM (dummyPin bs)
  some { p with pins := cs ++ ds }

/-- 1466-1477: the first shape of the first pin of the first guard ring. -/
def guardPin (gs : List (List Pin)) : List Pin :=
  match gs with
  | (p :: _) :: _ =>
    match p.contacts with
    | c :: _ => [{ name := p.name, net := -1, contacts := [c] }]
    | [] => []
  | _ => []

/-- 1478-1485: it goes to the first ground. -/
def toGround (g : List Pin) : List Power → List Power
  | [] => []
  | p :: ps => if p.power = false then { p with pins := p.pins ++ g } :: ps else p :: toGround g ps

/-- 1491-1504: the pins that are kept, and the shapes that become inner metal. -/
def keep : List Pin → List Pin × List Shape
  | [] => ([], [])
  | p :: ps => if p.net = -2 then ([], p.contacts) else (p :: (keep ps).1, p.contacts ++ (keep ps).2)

/-- 1489-1508. -/
def strip (b : Block) : Block :=
  { b with insts := b.insts.map fun v => { v with pins := (keep v.pins).1, metals := v.metals ++ (keep v.pins).2 } }

/-- `Extract_RemovePowerPins` (1439-1510). -/
def extract (n : Node) : Option Node := do
  let ps ← n.powers.mapM (extractNet n.blocks)
  some { n with powers := toGround (guardPin n.guards) ps, blocks := n.blocks.map strip }

/-! ## Specification -/

/-- The power pin as it is lent. -/
def Lent (d q : Pin) : Prop := q.name = d.name ∧ q.contacts = d.contacts ∧ q.net = -2

/-- All variants of a block have the same number of pins. -/
def Uniform (bs : List Block) : Prop := ∀ b ∈ bs, ∀ v ∈ b.insts, ∀ w ∈ b.insts, v.pins.length = w.pins.length

/-- What the placer may do: it chooses variants and moves pins, as `R` says, but keeps pins and power nets. -/
structure Placed (R : Pin → Pin → Prop) (a p : Node) : Prop where
  blocks : List.Forall₂ (fun (b b' : Block) => b'.sel < b'.insts.length ∧
    List.Forall₂ (fun (v v' : Inst) => List.Forall₂ R v.pins v'.pins) b.insts b'.insts) a.blocks p.blocks
  powers : List.Forall₂ (fun (w w' : Power) => w'.name = w.name ∧ w'.power = w.power ∧ w'.connected = w.connected ∧ w'.dummy = w.dummy) a.powers p.powers

/-- Variant `v` of block `k` is the one chosen in `p`. -/
def Chosen (n p : Node) (k : Nat) (v : Inst) : Prop :=
  ∃ b b', n.blocks[k]? = some b ∧ p.blocks[k]? = some b' ∧ b.insts[b'.sel]? = some v

/-- Net `j` is the first ground. -/
def FirstGround (ps : List Power) (j : Nat) : Prop :=
  (∃ w, ps[j]? = some w ∧ w.power = false) ∧ ∀ (i : Nat) (w : Power), i < j → ps[i]? = some w → w.power = true

/-- The shape that the guard rings give to the ground. -/
structure Ring (gs : List (List Pin)) (l : List Pin) : Prop where
  some : ∀ p ps rs c cs, gs = (p :: ps) :: rs → p.contacts = c :: cs → l.map (fun q => (q.name, q.contacts)) = [(p.name, [c])]
  none : (∀ p ps rs c cs, gs = (p :: ps) :: rs → p.contacts ≠ c :: cs) → l = []

/-- Power net `j`, which was `w`, after the placement: its pins are those of its connections in the chosen variants as they are placed, then
its power pins there, then what the guard rings give. -/
structure Supplied (R : Pin → Pin → Prop) (n p : Node) (j : Nat) (w w' : Power) : Prop where
  name : w'.name = w.name
  power : w'.power = w.power
  pins : ∃ cs ds gs, w'.pins = cs ++ ds ++ gs ∧
    List.Forall₂ (fun (c : Conn) (q : Pin) => ∃ i k v x, c = .pin i k ∧ Chosen n p k v ∧ v.pins[i]? = some x ∧ R x q) w.connected cs ∧
    List.Forall₂ (fun (c : Nat × Nat) (q : Pin) => ∃ v d x, Chosen n p c.2 v ∧ v.dummies[c.1]? = some d ∧ Lent d x ∧ R x q) w.dummy ds ∧
    (FirstGround n.powers j → Ring p.guards gs) ∧ (¬ FirstGround n.powers j → gs = [])

/-! ## Lending -/

def lentPin (d : Pin) : Pin := { d with net := -2 }

/-- What is lent to a variant of block `k` for the connections `cs`. -/
def extra (cs : List (Nat × Nat)) (k : Nat) (ds : List Pin) : List Pin :=
  (cs.filter fun c => c.2 == k).filterMap fun c => (ds[c.1]?).map lentPin

def lentInst (cs : List (Nat × Nat)) (k : Nat) (v : Inst) : Inst := { v with pins := v.pins ++ extra cs k v.dummies }

def lentBlocks (cs : List (Nat × Nat)) (bs : List Block) : List Block :=
  bs.mapIdx fun k (b : Block) => { b with insts := b.insts.map (lentInst cs k) }

/-- The connection has a power pin in every variant. -/
def InRange (bs : List Block) (c : Nat × Nat) : Prop := ∃ b, bs[c.2]? = some b ∧ ∀ v ∈ b.insts, ∃ d, v.dummies[c.1]? = some d

theorem lentBlocks_nil {bs : List Block} : lentBlocks [] bs = bs := by
  apply List.ext_getElem?
  intro k
  simp only [lentBlocks, List.getElem?_mapIdx]
  cases bs[k]? with
  | none => rfl
  | some b =>
    have : b.insts.map (lentInst [] k) = b.insts := by
      conv_rhs => rw [← List.map_id b.insts]
      refine List.map_congr_left fun v _ => ?_
      simp [lentInst, extra]
    simp [this]

theorem extra_append {l r : List (Nat × Nat)} {k : Nat} {ds : List Pin} : extra (l ++ r) k ds = extra l k ds ++ extra r k ds := by
  simp [extra, List.filter_append, List.filterMap_append]

theorem extra_length {cs : List (Nat × Nat)} {k : Nat} {bs : List Block} {b : Block} {v : Inst} (h : ∀ c ∈ cs, InRange bs c)
    (hb : bs[k]? = some b) (hv : v ∈ b.insts) : (extra cs k v.dummies).length = (cs.filter fun c => c.2 == k).length := by
  induction cs with
  | nil => rfl
  | cons c cs ih =>
    have ih := ih fun x hx => h x (by simp [hx])
    by_cases hc : c.2 = k
    · obtain ⟨b', hb', hd⟩ := h c (by simp)
      rw [hc, hb, Option.some.injEq] at hb'
      subst hb'
      obtain ⟨d, hd⟩ := hd v hv
      simp only [extra, List.filter_cons, hc, beq_self_eq_true, if_true, hd, Option.map_some, List.filterMap_cons, List.length_cons] at ih ⊢
      rw [ih]
    · have : (c.2 == k) = false := by simpa using hc
      simp only [extra, List.filter_cons, this] at ih ⊢
      exact ih

theorem lend_spec {bs0 bs : List Block} {done : List (Nat × Nat)} {c : Nat × Nat} {r : List Block × (Nat × Nat)}
    (hu : Uniform bs0) (hd : ∀ x ∈ done, InRange bs0 x) (hbs : bs = lentBlocks done bs0) (h : lend bs c = some r) :
    r.1 = lentBlocks (done ++ [c]) bs0 ∧ InRange bs0 c ∧ r.2.2 = c.2 ∧ ∀ b, bs0[c.2]? = some b → ∀ v ∈ b.insts,
      r.2.1 = v.pins.length + (extra done c.2 v.dummies).length := by
  simp only [lend, Option.bind_eq_bind, Option.bind_eq_some_iff, Option.some.injEq] at h
  obtain ⟨b, hb, vs, hvs, rfl⟩ := h
  rw [hbs] at hb
  simp only [lentBlocks, List.getElem?_mapIdx, Option.map_eq_some_iff] at hb
  obtain ⟨b0, hb0, rfl⟩ := hb
  have hrel := mapM_rel hvs
  simp only [List.forall₂_map_left_iff] at hrel
  have hin : InRange bs0 c := by
    refine ⟨b0, hb0, ?_⟩
    intro v hv
    obtain ⟨k, hk⟩ := List.mem_iff_getElem?.1 hv
    obtain ⟨v', -, hh⟩ := (PnrNet.forall₂_at hrel (k := k)).1 hk
    simp only [lendInst, Option.map_eq_some_iff] at hh
    obtain ⟨d, hd, -⟩ := hh
    exact ⟨d, hd⟩
  refine ⟨?_, hin, rfl, ?_⟩
  · have hvs' : vs = b0.insts.map (lentInst (done ++ [c]) c.2) := by
      clear hvs hin
      generalize b0.insts = l at hrel
      induction hrel with
      | nil => rfl
      | @cons v v' _ _ h1 _ ih =>
        rw [List.map_cons, ih]
        congr 1
        simp only [lendInst, Option.map_eq_some_iff] at h1
        obtain ⟨d, hd, rfl⟩ := h1
        have hd' : v.dummies[c.1]? = some d := hd
        simp [lentInst, extra, hd', lentPin]
    simp only [hbs]
    apply List.ext_getElem?
    intro k
    by_cases hk : c.2 = k
    · subst hk
      obtain ⟨hlt, -⟩ := List.getElem?_eq_some_iff.1 hb0
      rw [List.getElem?_set_self (by simpa [lentBlocks] using hlt)]
      simp [lentBlocks, hb0, hvs']
    · rw [List.getElem?_set_ne hk]
      simp only [lentBlocks, List.getElem?_mapIdx]
      cases bs0[k]? with
      | none => rfl
      | some b =>
        have : ∀ v : Inst, lentInst done k v = lentInst (done ++ [c]) k v := by
          intro v
          have hk' : (c.2 == k) = false := by simpa using hk
          simp [lentInst, extra, hk']
        simp only [Option.map_some, Option.some.injEq]
        congr 1
        exact List.map_congr_left fun v _ => this v
  · intro b hb v hv
    rw [hb0, Option.some.injEq] at hb
    subst hb
    cases hg : b0.insts.getLast? with
    | none =>
      rw [List.getLast?_eq_none_iff] at hg
      rw [hg] at hv
      cases hv
    | some w =>
      have hw := List.mem_of_getLast? hg
      simp only [List.getLast?_map, hg, Option.map_some, Option.getD_some, lentInst, List.length_append]
      rw [extra_length hd hb0 hw, extra_length hd hb0 hv, hu b0 (List.mem_of_getElem? hb0) w hw v hv]

/-- Where connection `c` is found after all the connections `total` have been lent. -/
def Found (bs0 : List Block) (total : List (Nat × Nat)) (c c' : Nat × Nat) : Prop :=
  c'.2 = c.2 ∧ ∃ b, bs0[c.2]? = some b ∧ ∀ v ∈ b.insts, ∃ d, v.dummies[c.1]? = some d ∧
    (v.pins ++ extra total c.2 v.dummies)[c'.1]? = some (lentPin d)

theorem lendAll_spec {bs0 : List Block} (hu : Uniform bs0) (rest : List (Nat × Nat)) : ∀ (cs : List (Nat × Nat)) {done : List (Nat × Nat)} {bs : List Block}
    {r : List Block × List (Nat × Nat)}, (∀ x ∈ done, InRange bs0 x) → bs = lentBlocks done bs0 → lendAll bs cs = some r →
    r.1 = lentBlocks (done ++ cs) bs0 ∧ (∀ c ∈ cs, InRange bs0 c) ∧ List.Forall₂ (Found bs0 (done ++ cs ++ rest)) cs r.2
  | [], done, bs, r, _, hbs, h => by
    simp only [lendAll, Option.some.injEq] at h
    subst h
    exact ⟨by simpa using hbs, by simp, .nil⟩
  | c :: cs, done, bs, r, hd, hbs, h => by
    simp only [lendAll, Option.bind_eq_bind, Option.bind_eq_some_iff, Option.some.injEq] at h
    obtain ⟨s, h1, q, h2, rfl⟩ := h
    obtain ⟨a1, a2, a3, a4⟩ := lend_spec hu hd hbs h1
    obtain ⟨b1, b2, b3⟩ := lendAll_spec hu rest cs (done := done ++ [c]) (by
      intro x hx
      rcases List.mem_append.1 hx with hx | hx
      · exact hd x hx
      · rw [List.mem_singleton.1 hx]
        exact a2) a1 h2
    have e : done ++ [c] ++ cs = done ++ c :: cs := by simp
    rw [e] at b1 b3
    obtain ⟨b, hb, hdd⟩ := a2
    have a2 : InRange bs0 c := ⟨b, hb, hdd⟩
    refine ⟨b1, ?_, .cons ⟨a3, b, hb, ?_⟩ b3⟩
    · intro x hx
      rcases List.mem_cons.1 hx with rfl | hx
      · exact a2
      · exact b2 x hx
    · intro v hv
      obtain ⟨d, hd'⟩ := hdd v hv
      refine ⟨d, hd', ?_⟩
      rw [a4 b hb v hv]
      have : extra (done ++ c :: cs ++ rest) c.2 v.dummies = extra done c.2 v.dummies ++ lentPin d :: extra (cs ++ rest) c.2 v.dummies := by
        rw [show done ++ c :: cs ++ rest = done ++ ([c] ++ (cs ++ rest)) by simp, extra_append, extra_append]
        simp [extra, hd']
      rw [this, ← List.append_assoc, ← List.length_append, List.getElem?_append_right (Nat.le_refl _)]
      simp

theorem addPowers_spec {bs0 : List Block} (hu : Uniform bs0) : ∀ (ps : List Power) {done : List (Nat × Nat)} {bs : List Block}
    {r : List Block × List Power}, (∀ x ∈ done, InRange bs0 x) → bs = lentBlocks done bs0 → addPowers bs ps = some r →
    r.1 = lentBlocks (done ++ ps.flatMap (·.dummy)) bs0 ∧ List.Forall₂ (fun (w w' : Power) => w'.name = w.name ∧ w'.power = w.power ∧
      w'.connected = w.connected ∧ List.Forall₂ (Found bs0 (done ++ ps.flatMap (·.dummy))) w.dummy w'.dummy) ps r.2
  | [], done, bs, r, _, hbs, h => by
    simp only [addPowers, Option.some.injEq] at h
    subst h
    exact ⟨by simpa using hbs, .nil⟩
  | p :: ps, done, bs, r, hd, hbs, h => by
    simp only [addPowers, Option.bind_eq_bind, Option.bind_eq_some_iff, Option.some.injEq] at h
    obtain ⟨s, h1, q, h2, rfl⟩ := h
    obtain ⟨a1, a2, a3⟩ := lendAll_spec hu (ps.flatMap (·.dummy)) p.dummy hd hbs h1
    obtain ⟨b1, b2⟩ := addPowers_spec hu ps (done := done ++ p.dummy) (by
      intro x hx
      rcases List.mem_append.1 hx with hx | hx
      · exact hd x hx
      · exact a2 x hx) a1 h2
    rw [List.flatMap_cons, ← List.append_assoc]
    exact ⟨b1, .cons ⟨rfl, rfl, rfl, a3⟩ b2⟩

theorem add_spec {n a : Node} (hu : Uniform n.blocks) (h : add n = some a) :
    a.blocks = lentBlocks (n.powers.flatMap (·.dummy)) n.blocks ∧ List.Forall₂ (fun (w w' : Power) => w'.name = w.name ∧ w'.power = w.power ∧
      w'.connected = w.connected ∧ List.Forall₂ (Found n.blocks (n.powers.flatMap (·.dummy))) w.dummy w'.dummy) n.powers a.powers := by
  simp only [add, Option.map_eq_some_iff] at h
  obtain ⟨r, hr, rfl⟩ := h
  obtain ⟨h1, h2⟩ := addPowers_spec hu n.powers (done := []) (by simp) lentBlocks_nil.symm hr
  exact ⟨by simpa using h1, by simpa using h2⟩

theorem lentPin_lent (d : Pin) : Lent d (lentPin d) := ⟨rfl, rfl, rfl⟩

theorem mem_extra {cs : List (Nat × Nat)} {k : Nat} {ds : List Pin} {q : Pin} (h : q ∈ extra cs k ds) : ∃ d ∈ ds, Lent d q := by
  simp only [extra, List.mem_filterMap, Option.map_eq_some_iff] at h
  obtain ⟨c, -, d, hd, rfl⟩ := h
  exact ⟨d, List.mem_of_getElem? hd, lentPin_lent d⟩

theorem lentBlocks_rel {cs : List (Nat × Nat)} {bs : List Block} : List.Forall₂ (fun (b b' : Block) => b'.sel = b.sel ∧
    ∃ k, b'.insts = b.insts.map (lentInst cs k)) bs (lentBlocks cs bs) := by
  rw [List.forall₂_iff_get]
  refine ⟨by simp [lentBlocks], ?_⟩
  intro k h1 h2
  simp only [List.get_eq_getElem, lentBlocks, List.getElem_mapIdx]
  exact ⟨trivial, k, rfl⟩

/-- **C111** Power pins are lent: every variant keeps its pins, and after them has pins without net; every power net has its connections
to other pins unchanged, and finds each of its power pins at the place noted, in every variant of the block. -/
theorem C111_added (n a : Node) (hu : Uniform n.blocks) (h : add n = some a) :
    List.Forall₂ (fun (b b' : Block) => b'.sel = b.sel ∧ List.Forall₂ (fun (v v' : Inst) => v'.metals = v.metals ∧
      ∃ l, v'.pins = v.pins ++ l ∧ ∀ q ∈ l, ∃ d ∈ v.dummies, Lent d q) b.insts b'.insts) n.blocks a.blocks ∧
    List.Forall₂ (fun (w w' : Power) => w'.name = w.name ∧ w'.power = w.power ∧ w'.connected = w.connected ∧
      List.Forall₂ (fun (c c' : Nat × Nat) => c'.2 = c.2 ∧ ∃ b b', n.blocks[c.2]? = some b ∧ a.blocks[c.2]? = some b' ∧
        List.Forall₂ (fun (v v' : Inst) => ∃ d q, v.dummies[c.1]? = some d ∧ v'.pins[c'.1]? = some q ∧ Lent d q) b.insts b'.insts)
        w.dummy w'.dummy) n.powers a.powers := by
  obtain ⟨h1, h2⟩ := add_spec hu h
  rw [h1]
  refine ⟨lentBlocks_rel.imp ?_, h2.imp ?_⟩
  · rintro b b' ⟨e1, k, e2⟩
    refine ⟨e1, ?_⟩
    rw [e2, List.forall₂_map_right_iff, List.forall₂_same]
    intro v _
    exact ⟨rfl, _, rfl, fun q hq => mem_extra hq⟩
  · rintro w w' ⟨e1, e2, e3, e4⟩
    refine ⟨e1, e2, e3, e4.imp ?_⟩
    rintro c c' ⟨f1, b, hb, f2⟩
    refine ⟨f1, b, { b with insts := b.insts.map (lentInst (n.powers.flatMap (·.dummy)) c.2) }, hb, by simp [lentBlocks, hb], ?_⟩
    simp only
    rw [List.forall₂_map_right_iff, List.forall₂_same]
    intro v hv
    obtain ⟨d, g1, g2⟩ := f2 v hv
    exact ⟨d, lentPin d, g1, g2, lentPin_lent d⟩

/-! ## Taking back -/

theorem keep_spec {R : Pin → Pin → Prop} (hR : ∀ x q, R x q → q.net = x.net) : ∀ (l e : List Pin) {m : List Pin}, List.Forall₂ R (l ++ e) m →
    (∀ x ∈ l, x.net ≠ -2) → (∀ x ∈ e, x.net = -2) → List.Forall₂ R l (keep m).1 ∧ (keep m).1 = m.take l.length ∧
      (keep m).2 = (m.take (l.length + 1)).flatMap (·.contacts)
  | [], [], _, h, _, _ => by
    cases h
    exact ⟨.nil, rfl, rfl⟩
  | [], x :: e, _, h, _, h2 => by
    cases h with
    | cons h1 h3 =>
      rename_i q m
      have : q.net = -2 := (hR _ _ h1).trans (h2 x (by simp))
      simp [keep, this]
  | x :: l, e, _, h, h1, h2 => by
    cases h with
    | cons h3 h4 =>
      rename_i q m
      have hq : q.net ≠ -2 := by rw [hR _ _ h3]; exact h1 x (by simp)
      obtain ⟨i1, i2, i3⟩ := keep_spec hR l e h4 (fun y hy => h1 y (by simp [hy])) h2
      refine ⟨?_, ?_, ?_⟩
      · simp only [keep, if_neg hq]
        exact .cons h3 i1
      · simp only [keep, if_neg hq, List.length_cons, List.take_succ_cons, i2]
      · simp only [keep, if_neg hq, List.length_cons, List.take_succ_cons, List.flatMap_cons, i3]

theorem toGround_at {g : List Pin} : ∀ (ps : List Power) (j : Nat) {w : Power}, ps[j]? = some w → ∃ w', (toGround g ps)[j]? = some w' ∧
    w'.name = w.name ∧ w'.power = w.power ∧ ∃ gs, w'.pins = w.pins ++ gs ∧ (FirstGround ps j → gs = g) ∧ (¬ FirstGround ps j → gs = [])
  | [], _, _, h => by simp at h
  | p :: ps, 0, w, h => by
    simp only [List.getElem?_cons_zero, Option.some.injEq] at h
    subst h
    by_cases hp : p.power = false
    · refine ⟨{ p with pins := p.pins ++ g }, by simp [toGround, hp], rfl, rfl, g, rfl, fun _ => rfl, ?_⟩
      intro hn
      exact absurd ⟨⟨p, rfl, hp⟩, fun i w hi => by omega⟩ hn
    · refine ⟨p, by simp only [toGround, if_neg hp, List.getElem?_cons_zero], rfl, rfl, [], by simp, ?_, fun _ => rfl⟩
      rintro ⟨⟨w, hw, hh⟩, -⟩
      simp only [List.getElem?_cons_zero, Option.some.injEq] at hw
      subst hw
      exact absurd hh hp
  | p :: ps, j + 1, w, h => by
    simp only [List.getElem?_cons_succ] at h
    by_cases hp : p.power = false
    · refine ⟨w, by simp [toGround, hp, h], rfl, rfl, [], by simp, ?_, fun _ => rfl⟩
      rintro ⟨-, hf⟩
      have := hf 0 p (by omega) rfl
      rw [hp] at this
      cases this
    · obtain ⟨w', h1, h2, h3, gs, h4, h5, h6⟩ := toGround_at (g := g) ps j h
      have hiff : FirstGround (p :: ps) (j + 1) ↔ FirstGround ps j := by
        constructor
        · rintro ⟨⟨x, hx, hh⟩, hf⟩
          refine ⟨⟨x, by simpa using hx, hh⟩, ?_⟩
          intro i y hi hy
          exact hf (i + 1) y (by omega) (by simpa using hy)
        · rintro ⟨⟨x, hx, hh⟩, hf⟩
          refine ⟨⟨x, by simpa using hx, hh⟩, ?_⟩
          intro i y hi hy
          cases i with
          | zero =>
            simp only [List.getElem?_cons_zero, Option.some.injEq] at hy
            subst hy
            simpa using hp
          | succ i => exact hf i y (by omega) (by simpa using hy)
      refine ⟨w', by simp only [toGround, if_neg hp, List.getElem?_cons_succ, h1], h2, h3, gs, h4, ?_, ?_⟩
      · exact fun hh => h5 (hiff.1 hh)
      · exact fun hh => h6 fun hx => hh (hiff.2 hx)

theorem toGround_length {g : List Pin} : ∀ (ps : List Power), (toGround g ps).length = ps.length
  | [] => rfl
  | p :: ps => by
    by_cases hp : p.power = false
    · simp [toGround, hp]
    · simp only [toGround, if_neg hp, List.length_cons, toGround_length ps]

theorem guardPin_ring (gs : List (List Pin)) : Ring gs (guardPin gs) := by
  constructor
  · rintro p ps rs c cs rfl hc
    simp [guardPin, hc]
  · intro h
    unfold guardPin
    split
    · rename_i p ps rs
      split
      · rename_i c cs hc
        exact absurd hc (h p ps rs c cs rfl)
      · rfl
    · rfl

theorem firstGround_congr {ps qs : List Power} (h : ps.map (·.power) = qs.map (·.power)) {j : Nat} (hp : FirstGround ps j) : FirstGround qs j := by
  have key : ∀ {l r : List Power}, l.map (·.power) = r.map (·.power) → ∀ {i : Nat} {w : Power}, l[i]? = some w →
      ∃ w', r[i]? = some w' ∧ w'.power = w.power := by
    intro l r hlr i w hw
    have : (l.map (·.power))[i]? = some w.power := by simp [hw]
    rw [hlr, List.getElem?_map, Option.map_eq_some_iff] at this
    exact this
  obtain ⟨⟨w, hw, hh⟩, hf⟩ := hp
  obtain ⟨w', hw', e⟩ := key h hw
  refine ⟨⟨w', hw', e.trans hh⟩, ?_⟩
  intro i x hi hx
  obtain ⟨y, hy, e'⟩ := key h.symm hx
  rw [← e']
  exact hf i y hi hy

section
variable {R : Pin → Pin → Prop} {n a p r : Node}

/-- A variant that is chosen, before and after the placement. -/
theorem chosen_rel (ha : a.blocks = lentBlocks (n.powers.flatMap (·.dummy)) n.blocks) (hp : Placed R a p) {k : Nat} {v' : Inst} (h : chosen p.blocks k = some v') :
    ∃ v, Chosen n p k v ∧ (∃ b, n.blocks[k]? = some b ∧ v ∈ b.insts) ∧
      List.Forall₂ R (v.pins ++ extra (n.powers.flatMap (·.dummy)) k v.dummies) v'.pins := by
  simp only [chosen, Option.bind_eq_bind, Option.bind_eq_some_iff] at h
  obtain ⟨b', hb', hv'⟩ := h
  obtain ⟨b1, hb1, -, hrel⟩ := (PnrNet.forall₂_at hp.blocks (k := k)).2 hb'
  obtain ⟨v1, hv1, hpins⟩ := (PnrNet.forall₂_at hrel (k := b'.sel)).2 hv'
  rw [ha] at hb1
  simp only [lentBlocks, List.getElem?_mapIdx, Option.map_eq_some_iff] at hb1
  obtain ⟨b, hb, rfl⟩ := hb1
  simp only [List.getElem?_map, Option.map_eq_some_iff] at hv1
  obtain ⟨v, hv, rfl⟩ := hv1
  exact ⟨v, ⟨b, b', hb, hb', hv⟩, ⟨b, hb, List.mem_of_getElem? hv⟩, hpins⟩

/-- The connections of the power nets to pins. -/
def Connects (n : Node) : Prop := ∀ w ∈ n.powers, ∀ i k, Conn.pin i k ∈ w.connected → ∀ b, n.blocks[k]? = some b → ∀ v ∈ b.insts, i < v.pins.length

/-- **C111** After the placement every power net has the pins of its connections in the variants that were chosen, as they are placed, then
its power pins there, and the first ground a shape of a guard ring; the blocks have the pins they had before, as they are placed. -/
theorem C111_returned_partial (hu : Uniform n.blocks) (hc : Connects n) (hn : ∀ b ∈ n.blocks, ∀ v ∈ b.insts, ∀ x ∈ v.pins, x.net ≠ -2)
    (hR : ∀ x q, R x q → q.net = x.net) (ha : add n = some a) (hp : Placed R a p) (hr : extract p = some r) :
    List.Forall₂ (fun (b b' : Block) => List.Forall₂ (fun (v v' : Inst) => List.Forall₂ R v.pins v'.pins) b.insts b'.insts) n.blocks r.blocks ∧
    r.blocks.map (·.sel) = p.blocks.map (·.sel) ∧ r.powers.length = n.powers.length ∧
    ∀ (j : Nat) (w : Power), n.powers[j]? = some w → ∃ w', r.powers[j]? = some w' ∧ Supplied R n p j w w' := by
  obtain ⟨h1, h2⟩ := add_spec hu ha
  simp only [extract, Option.bind_eq_bind, Option.bind_eq_some_iff, Option.some.injEq] at hr
  obtain ⟨ps, hps, rfl⟩ := hr
  have hps := mapM_rel hps
  refine ⟨?_, by simp [strip, Function.comp_def], ?_, ?_⟩
  · simp only
    rw [List.forall₂_map_right_iff]
    rw [List.forall₂_iff_get]
    have hb := hp.blocks
    refine ⟨by rw [← hb.length_eq, h1]; simp [lentBlocks], ?_⟩
    intro k k1 k2
    have hget := (List.forall₂_iff_get.1 hb).2 k (by rw [h1]; simpa [lentBlocks] using k1) k2
    simp only [List.get_eq_getElem, h1, lentBlocks, List.getElem_mapIdx, strip] at hget ⊢
    rw [List.forall₂_map_right_iff]
    rw [List.forall₂_map_left_iff] at hget
    have hmem : ∀ v ∈ n.blocks[k].insts, ∀ x ∈ v.pins, x.net ≠ -2 := hn _ (List.getElem_mem k1)
    refine (List.forall₂_iff_get.2 ⟨hget.2.length_eq, ?_⟩)
    intro i i1 i2
    have := (List.forall₂_iff_get.1 hget.2).2 i i1 i2
    exact (keep_spec hR _ _ this (hmem _ (List.getElem_mem i1)) (fun x hx => by obtain ⟨d, -, hd⟩ := mem_extra hx; exact hd.2.2)).1
  · simp only [toGround_length]
    rw [← hps.length_eq, ← hp.powers.length_eq, ← h2.length_eq]
  · intro j w hw
    obtain ⟨w1, hw1, e1, e2, e3, e4⟩ := (PnrNet.forall₂_at h2 (k := j)).1 hw
    obtain ⟨w2, hw2, f1, f2, f3, f4⟩ := (PnrNet.forall₂_at hp.powers (k := j)).1 hw1
    obtain ⟨w3, hw3, hx⟩ := (PnrNet.forall₂_at hps (k := j)).1 hw2
    obtain ⟨w', hw', g1, g2, gs, g3, g4, g5⟩ := toGround_at (g := guardPin p.guards) ps j hw3
    have hx' := hx
    simp only [extractNet, Option.bind_eq_bind, Option.bind_eq_some_iff, Option.some.injEq] at hx
    obtain ⟨cs, hcs, ds, hds, rfl⟩ := hx
    have hpow : ps.map (·.power) = n.powers.map (·.power) := by
      have h3 : ∀ {l m : List Power}, List.Forall₂ (fun (x y : Power) => y.power = x.power) l m → m.map (·.power) = l.map (·.power) := by
        intro l m h
        induction h with
        | nil => rfl
        | cons h1 _ ih => rw [List.map_cons, List.map_cons, h1, ih]
      rw [h3 (l := p.powers), h3 (hp.powers.imp fun _ _ h => h.2.1), h3 (h2.imp fun _ _ h => h.2.1)]
      refine hps.imp ?_
      intro x y hxy
      simp only [extractNet, Option.bind_eq_bind, Option.bind_eq_some_iff, Option.some.injEq] at hxy
      obtain ⟨_, _, _, _, rfl⟩ := hxy
      rfl
    refine ⟨w', hw', by rw [g1, f1, e1], by rw [g2, f2, e2], cs, ds, gs, g3, ?_, ?_, ?_, ?_⟩
    · rw [f3, e3] at hcs
      have hcs := mapM_rel hcs
      have hmem := List.mem_of_getElem? hw
      refine (List.forall₂_iff_get.2 ⟨hcs.length_eq, ?_⟩)
      intro i i1 i2
      have hq := (List.forall₂_iff_get.1 hcs).2 i i1 i2
      have hcm : w.connected.get ⟨i, i1⟩ ∈ w.connected := List.getElem_mem i1
      generalize w.connected.get ⟨i, i1⟩ = c at hq hcm
      generalize cs.get ⟨i, i2⟩ = q at hq
      cases c with
      | term q => simp [connPin] at hq
      | pin i k =>
        simp only [connPin, Option.bind_eq_bind, Option.bind_eq_some_iff] at hq
        obtain ⟨v', hv', hq⟩ := hq
        obtain ⟨v, hv, ⟨b, hb, hvb⟩, hpins⟩ := chosen_rel h1 hp hv'
        obtain ⟨x, hx, hRx⟩ := (PnrNet.forall₂_at hpins (k := i)).2 hq
        rw [List.getElem?_append_left (hc w hmem i k hcm b hb v hvb)] at hx
        exact ⟨i, k, v, x, rfl, hv, hx, hRx⟩
    · rw [f4] at hds
      refine rel_comp ?_ e4 (mapM_rel hds)
      rintro c c' q ⟨k1, b, hb, k2⟩ hq
      simp only [dummyPin, Option.map_eq_some_iff] at hq
      obtain ⟨v', hv', rfl⟩ := hq
      rw [k1] at hv'
      obtain ⟨v, hv, ⟨b', hb', hvb⟩, hpins⟩ := chosen_rel h1 hp hv'
      rw [hb, Option.some.injEq] at hb'
      subst hb'
      obtain ⟨d, hd, hx⟩ := k2 v hvb
      obtain ⟨q, hq, hRq⟩ := (PnrNet.forall₂_at hpins (k := c'.1)).1 hx
      exact ⟨v, d, lentPin d, hv, hd, lentPin_lent d, by rw [hq, Option.getD_some]; exact hRq⟩
    · intro hh
      rw [g4 (firstGround_congr hpow.symm hh)]
      exact guardPin_ring _
    · exact fun hh => g5 fun hx => hh (firstGround_congr hpow hx)


/-- **C111** The shapes of the own pins of a variant become inner metal, and those of the first pin that was lent to it. What is missing:
those of the other pins that were lent. -/
theorem C111_metals_partial (hr : extract p = some r) (hR : ∀ x q, R x q → q.net = x.net) (ha : add n = some a) (hp : Placed R a p)
    (hu : Uniform n.blocks) (hn : ∀ b ∈ n.blocks, ∀ v ∈ b.insts, ∀ x ∈ v.pins, x.net ≠ -2) :
    List.Forall₂ (fun (b b' : Block) => List.Forall₂ (fun (v v' : Inst) => ∃ l, v'.metals = v.metals ++ v'.pins.flatMap (·.contacts) ++ l ∧
      (∀ q, v.pins[v'.pins.length]? = some q → l = q.contacts) ∧ (v.pins.length = v'.pins.length → l = [])) b.insts b'.insts) p.blocks r.blocks := by
  obtain ⟨h1, -⟩ := add_spec hu ha
  simp only [extract, Option.bind_eq_bind, Option.bind_eq_some_iff, Option.some.injEq] at hr
  obtain ⟨ps, -, rfl⟩ := hr
  simp only
  rw [List.forall₂_map_right_iff, List.forall₂_same]
  intro b hb
  obtain ⟨k, hk⟩ := List.mem_iff_getElem?.1 hb
  obtain ⟨b1, hb1, -, hrel⟩ := (PnrNet.forall₂_at hp.blocks (k := k)).2 hk
  rw [h1] at hb1
  simp only [lentBlocks, List.getElem?_mapIdx, Option.map_eq_some_iff] at hb1
  obtain ⟨b0, hb0, rfl⟩ := hb1
  rw [List.forall₂_map_left_iff] at hrel
  simp only [strip]
  rw [List.forall₂_map_right_iff, List.forall₂_same]
  intro v hv
  obtain ⟨i, hi⟩ := List.mem_iff_getElem?.1 hv
  obtain ⟨v0, hv0, hpins⟩ := (PnrNet.forall₂_at hrel (k := i)).2 hi
  obtain ⟨-, k2, k3⟩ := keep_spec hR _ _ hpins (hn b0 (List.mem_of_getElem? hb0) v0 (List.mem_of_getElem? hv0))
    (fun x hx => by obtain ⟨d, -, hd⟩ := mem_extra hx; exact hd.2.2)
  have hle : v0.pins.length ≤ v.pins.length := by rw [← hpins.length_eq]; simp [lentInst]
  refine ⟨((v.pins[v0.pins.length]?).toList).flatMap (·.contacts), ?_, ?_, ?_⟩
  · simp only [k2, k3, List.take_add_one, List.flatMap_append, List.append_assoc]
  · intro q hq
    simp only [k2, List.length_take, Nat.min_eq_left hle] at hq
    simp [hq]
  · intro hl
    simp only [k2, List.length_take, Nat.min_eq_left hle] at hl
    simp [List.getElem?_eq_none (Nat.le_of_eq hl)]

/-- **C111** Lending succeeds exactly if every connection has a power pin in every variant of its block. -/
theorem C111_adds (n : Node) (hu : Uniform n.blocks) :
    (∃ a, add n = some a) ↔ ∀ w ∈ n.powers, ∀ c ∈ w.dummy, ∃ b, n.blocks[c.2]? = some b ∧ ∀ v ∈ b.insts, c.1 < v.dummies.length := by
  constructor
  · rintro ⟨a, ha⟩ w hw c hc
    obtain ⟨-, h2⟩ := add_spec hu ha
    obtain ⟨j, hj⟩ := List.mem_iff_getElem?.1 hw
    obtain ⟨w', -, -, -, -, h3⟩ := (PnrNet.forall₂_at h2 (k := j)).1 hj
    obtain ⟨i, hi⟩ := List.mem_iff_getElem?.1 hc
    obtain ⟨c', -, -, b, hb, h4⟩ := (PnrNet.forall₂_at h3 (k := i)).1 hi
    refine ⟨b, hb, ?_⟩
    intro v hv
    obtain ⟨d, hd, -⟩ := h4 v hv
    exact (List.getElem?_eq_some_iff.1 hd).1
  · intro h
    have h' : ∀ w ∈ n.powers, ∀ c ∈ w.dummy, InRange n.blocks c := by
      intro w hw c hc
      obtain ⟨b, hb, hv⟩ := h w hw c hc
      exact ⟨b, hb, fun v hvb => ⟨_, List.getElem?_eq_getElem (hv v hvb)⟩⟩
    have step : ∀ (done : List (Nat × Nat)) (c : Nat × Nat), InRange n.blocks c → ∃ q, lend (lentBlocks done n.blocks) c = some q := by
      rintro done c ⟨b, hb, hd⟩
      obtain ⟨vs, hvs⟩ := mapM_some (f := lendInst c.1) (l := b.insts.map (lentInst done c.2)) (by
        intro x hx
        simp only [List.mem_map] at hx
        obtain ⟨v, hv, rfl⟩ := hx
        obtain ⟨d, hd⟩ := hd v hv
        have : (lentInst done c.2 v).dummies[c.1]? = some d := hd
        simp only [lendInst, this, Option.map_some]
        exact ⟨_, rfl⟩)
      simp only [lend, lentBlocks, List.getElem?_mapIdx, hb, Option.map_some, Option.bind_eq_bind, Option.bind_some, hvs]
      exact ⟨_, rfl⟩
    have all : ∀ (cs done : List (Nat × Nat)), (∀ x ∈ done, InRange n.blocks x) → (∀ x ∈ cs, InRange n.blocks x) →
        ∃ q, lendAll (lentBlocks done n.blocks) cs = some q := by
      intro cs
      induction cs with
      | nil => exact fun done _ _ => ⟨_, rfl⟩
      | cons c cs ih =>
        intro done hd hcs
        obtain ⟨q, hq⟩ := step done c (hcs c (by simp))
        obtain ⟨e1, -⟩ := lend_spec hu hd rfl hq
        obtain ⟨s, hs⟩ := ih (done ++ [c]) (by
          intro x hx
          rcases List.mem_append.1 hx with hx | hx
          · exact hd x hx
          · rw [List.mem_singleton.1 hx]; exact hcs c (by simp)) fun x hx => hcs x (by simp [hx])
        exact ⟨(s.1, q.2 :: s.2), by simp only [lendAll, hq, Option.bind_eq_bind, Option.bind_some, e1, hs]⟩
    have pow : ∀ (ps : List Power) (done : List (Nat × Nat)), (∀ x ∈ done, InRange n.blocks x) → (∀ w ∈ ps, ∀ x ∈ w.dummy, InRange n.blocks x) →
        ∃ q, addPowers (lentBlocks done n.blocks) ps = some q := by
      intro ps
      induction ps with
      | nil => exact fun done _ _ => ⟨_, rfl⟩
      | cons p ps ih =>
        intro done hd hps
        obtain ⟨q, hq⟩ := all p.dummy done hd (hps p (by simp))
        obtain ⟨e1, -⟩ := lendAll_spec hu [] p.dummy hd rfl hq
        obtain ⟨s, hs⟩ := ih (done ++ p.dummy) (by
          intro x hx
          rcases List.mem_append.1 hx with hx | hx
          · exact hd x hx
          · exact hps p (by simp) x hx) fun w hw => hps w (by simp [hw])
        exact ⟨(s.1, { p with dummy := q.2 } :: s.2), by simp only [addPowers, hq, Option.bind_eq_bind, Option.bind_some, e1, hs]⟩
    obtain ⟨q, hq⟩ := pow n.powers [] (by simp) h'
    rw [lentBlocks_nil] at hq
    exact ⟨_, by simp only [add, hq, Option.map_some]; rfl⟩

/-- **C111** Taking back succeeds if the power nets are connected to no terminals. -/
theorem C111_extracts (hu : Uniform n.blocks) (ha : add n = some a) (hp : Placed R a p)
    (hc : ∀ w ∈ n.powers, ∀ c ∈ w.connected, ∃ i k b, c = .pin i k ∧ n.blocks[k]? = some b ∧ ∀ v ∈ b.insts, i < v.pins.length) :
    ∃ r, extract p = some r := by
  obtain ⟨h1, h2⟩ := add_spec hu ha
  have hch : ∀ k b, n.blocks[k]? = some b → ∃ v', chosen p.blocks k = some v' := by
    intro k b hb
    have hab : a.blocks[k]? = some { b with insts := b.insts.map (lentInst (n.powers.flatMap (·.dummy)) k) } := by
      rw [h1]; simp [lentBlocks, hb]
    obtain ⟨b', hb', hlt, -⟩ := (PnrNet.forall₂_at hp.blocks (k := k)).1 hab
    exact ⟨b'.insts[b'.sel], by simp [chosen, hb', hlt]⟩
  obtain ⟨ps, hps⟩ := mapM_some (f := extractNet p.blocks) (l := p.powers) (by
    intro w2 hw2
    obtain ⟨j, hj⟩ := List.mem_iff_getElem?.1 hw2
    obtain ⟨w1, hw1, f1, f2, f3, f4⟩ := (PnrNet.forall₂_at hp.powers (k := j)).2 hj
    obtain ⟨w, hw, e1, e2, e3, e4⟩ := (PnrNet.forall₂_at h2 (k := j)).2 hw1
    have hwm := List.mem_of_getElem? hw
    obtain ⟨cs, hcs⟩ := mapM_some (f := connPin p.blocks) (l := w2.connected) (by
      rw [f3, e3]
      intro c hcm
      obtain ⟨i, k, b, rfl, hb, hlt⟩ := hc w hwm c hcm
      obtain ⟨v', hv'⟩ := hch k b hb
      obtain ⟨v, -, ⟨b', hb', hvb⟩, hpins⟩ := chosen_rel h1 hp hv'
      rw [hb, Option.some.injEq] at hb'
      subst hb'
      have hi : i < v'.pins.length := by
        rw [← hpins.length_eq, List.length_append]
        have := hlt v hvb
        omega
      exact ⟨v'.pins[i], by simp only [connPin, hv', Option.bind_eq_bind, Option.bind_some, List.getElem?_eq_getElem hi]⟩)
    obtain ⟨ds, hds⟩ := mapM_some (f := dummyPin p.blocks) (l := w2.dummy) (by
      rw [f4]
      intro c' hc'
      obtain ⟨i, hi⟩ := List.mem_iff_getElem?.1 hc'
      obtain ⟨c, -, k1, b, hb, -⟩ := (PnrNet.forall₂_at e4 (k := i)).2 hi
      obtain ⟨v', hv'⟩ := hch c.2 b hb
      rw [← k1] at hv'
      exact ⟨_, by simp only [dummyPin, hv', Option.map_some]; rfl⟩)
    exact ⟨{ w2 with pins := cs ++ ds }, by simp only [extractNet, hcs, hds, Option.bind_eq_bind, Option.bind_some]⟩)
  exact ⟨_, by simp only [extract, hps, Option.bind_eq_bind, Option.bind_some]; rfl⟩

end

/-! ## Concrete cases -/

/-- A module with an inverter with two variants, the second of which has its power pins at other places, and a ring. -/
def cell : Node :=
  { blocks := [{ insts := [⟨[⟨"A", 0, [⟨"M1", 0, 0, 2, 2⟩]⟩, ⟨"VSS", -1, [⟨"M1", 4, 0, 6, 2⟩]⟩],
        [⟨"VDD", -1, [⟨"M2", 0, 8, 9, 9⟩]⟩, ⟨"VSS", -1, [⟨"M2", 0, 0, 9, 1⟩]⟩], []⟩,
      ⟨[⟨"A", 0, [⟨"M1", 0, 0, 3, 3⟩]⟩, ⟨"VSS", -1, [⟨"M1", 5, 0, 7, 2⟩]⟩],
        [⟨"VDD", -1, [⟨"M2", 0, 7, 5, 8⟩]⟩, ⟨"VSS", -1, [⟨"M2", 0, 0, 5, 1⟩]⟩], []⟩], sel := 0 }],
    powers := [⟨"VDD", true, [], [(0, 0)], []⟩, ⟨"VSS", false, [.pin 1 0], [(1, 0)], []⟩],
    guards := [[⟨"G", -1, [⟨"M1", 0, 0, 1, 1⟩, ⟨"M1", 3, 3, 4, 4⟩]⟩]] }

/-- The placer chooses the second variant and moves nothing. -/
def second (n : Node) : Node := { n with blocks := n.blocks.map fun (b : Block) => { b with sel := 1 } }

example : (add cell).map (fun a => a.powers.map (·.dummy)) = some [[(2, 0)], [(3, 0)]] := by decide +kernel

example : ((add cell).bind fun a => extract (second a)).map (fun r => r.powers.map fun w => w.pins.map fun q => q.contacts) =
    some [[[⟨"M2", 0, 7, 5, 8⟩]], [[⟨"M1", 5, 0, 7, 2⟩], [⟨"M2", 0, 0, 5, 1⟩], [⟨"M1", 0, 0, 1, 1⟩]]] := by decide +kernel

/-- The hypotheses are met. -/
example : Uniform cell.blocks ∧ Connects cell ∧ (∀ b ∈ cell.blocks, ∀ v ∈ b.insts, ∀ x ∈ v.pins, x.net ≠ -2) ∧
    ∃ a, add cell = some a ∧ Placed (· = ·) a (second a) := by
  refine ⟨by unfold Uniform; decide +kernel, ?_, by decide +kernel, ?_⟩
  · intro w hw i k hk b hb v hv
    simp only [cell, List.mem_cons, List.not_mem_nil, or_false] at hw
    rcases hw with rfl | rfl
    · simp at hk
    · simp only [List.mem_cons, List.not_mem_nil, or_false, Conn.pin.injEq] at hk
      obtain ⟨rfl, rfl⟩ := hk
      simp only [cell, List.getElem?_cons_zero, Option.some.injEq] at hb
      subst hb
      simp only [List.mem_cons, List.not_mem_nil, or_false] at hv
      rcases hv with rfl | rfl <;> decide
  · obtain ⟨a, ha⟩ : ∃ a, add cell = some a := Option.isSome_iff_exists.1 (by decide +kernel)
    have hlen : (add cell).map (fun a => a.blocks.map fun b => b.insts.length) = some [2] := by decide +kernel
    rw [ha, Option.map_some, Option.some.injEq] at hlen
    refine ⟨a, ha, ⟨?_, ?_⟩⟩
    · simp only [second]
      rw [List.forall₂_map_right_iff, List.forall₂_same]
      intro b hb
      have : b.insts.length = 2 := by
        have h2 : b.insts.length ∈ a.blocks.map fun b => b.insts.length := List.mem_map.2 ⟨b, hb, rfl⟩
        rw [hlen] at h2
        simpa using h2
      refine ⟨by simp [this], ?_⟩
      simp only
      rw [List.forall₂_same]
      intro v _
      rw [List.forall₂_same]
      exact fun _ _ => rfl
    · rw [show (second a).powers = a.powers from rfl, List.forall₂_same]
      exact fun _ _ => ⟨rfl, rfl, rfl, rfl⟩

/-- **C111** violated: the shapes of the second pin that was lent are lost. -/
theorem C111_violated_metals : ((add cell).bind fun a => extract (second a)).map (fun r => r.blocks.flatMap fun b => b.insts.map fun v => v.metals) =
    some [[⟨"M1", 0, 0, 2, 2⟩, ⟨"M1", 4, 0, 6, 2⟩, ⟨"M2", 0, 8, 9, 9⟩], [⟨"M1", 0, 0, 3, 3⟩, ⟨"M1", 5, 0, 7, 2⟩, ⟨"M2", 0, 7, 5, 8⟩]] := by
  decide +kernel

/-- **C111** violated: if a power net is connected to a terminal, block -1 is read. -/
theorem C111_violated_terminal : ((add { cell with powers := [⟨"VDD", true, [.term 0], [], []⟩] }).bind fun a => extract (second a)) = none := by
  decide +kernel

end Verif.PowerPins

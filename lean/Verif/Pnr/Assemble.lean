import Verif.Geometry.Props
import Verif.Hier.HpwlProps
import Mathlib.Tactic.Ring
import Mathlib.Tactic.LinearCombination
import Mathlib.Tactic.Linarith
import Mathlib.Tactic.NormNum

/-!
# The layout of a routed block: `align/pnr/checkers.py:14-260`

`gen_viewer_json` puts the layouts of the blocks of a node and the shapes of its own nets together.
Names are lists of characters.  The checks for wires off the grid only add errors and are left out,
as are global routes (drawn only on request) and the later removal of duplicates (C10).
-/

namespace Verif.Assemble

open Verif.Geometry (Rect Transformation)

abbrev Name := List Char

/-- A terminal of a layout: `netName`, `layer`, `rect` and, for the terminals of devices,
`terminal`. -/
structure Shape where
  net : Option Name
  layer : String
  rect : Rect
  device : Option (Name × Name)
deriving DecidableEq, Repr

/-- A block of the node in its selected variant: name, names of the pins, transformation
(`gen_transformation`, modelled in `Verif.Geometry`), and the layout read from its JSON file
(box and terminals), if the file is found. -/
structure Blk where
  name : Name
  pins : List Name
  tr : Transformation
  layout : Option (Rect × List Shape)
deriving DecidableEq, Repr

/-- An entry of `n.connected`: pin and block, or terminal. -/
inductive Conn
  | block (pin blk : Nat)
  | terminal (i : Nat)
deriving DecidableEq, Repr

/-- A net: name, connections, and the shapes drawn for it: contacts of its pins, wires and vias
(`checkers.py:157-206`). -/
structure Net where
  name : Name
  conns : List Conn
  own : List (String × Rect)
deriving DecidableEq, Repr

/-- `hN`.  The power grid (`checkers.py:208-215`) is drawn like the shapes of a net and is
included in `power`. -/
structure HN where
  nets : List Net
  power : List Net
  blocks : List Blk
  terminals : List Name
  bbox : Rect
deriving DecidableEq, Repr

/-- `f"{blk.name}/{pin.name}"`. -/
def slash (a b : Name) : Name := a ++ '/' :: b

/-- One connection in the loop for `fa_map` (`checkers.py:88-102`). -/
def faConn (h : HN) (net : Name) (m : List (Name × Name)) : Conn → Option (List (Name × Name))
  | .block pin blk => do
    let b ← h.blocks[blk]?
    let p ← b.pins[pin]?
    let formal := slash b.name p
    if formal ∈ m.map (·.1) then none else some (m ++ [(formal, net)])
  | .terminal i => do
    let t ← h.terminals[i]?
    if net = t then some m else none

/-- `fa_map` (`checkers.py:85-104`). -/
def faMap (h : HN) : Option (List (Name × Name)) :=
  (h.nets ++ h.power).foldlM (fun m n => n.conns.foldlM (faConn h n.name) m) []

/-- All coordinates are multiples after multiplication. -/
def divides (mul div : Int) (r : Rect) : Bool :=
  (mul * r.llx).fmod div = 0 && (mul * r.lly).fmod div = 0 && (mul * r.urx).fmod div = 0 &&
    (mul * r.ury).fmod div = 0

/-- The new coordinates in `rational_scaling` (`checkers.py:17, 25`). -/
def scaleRect (mul div : Int) (r : Rect) : Rect :=
  ⟨(mul * r.llx).fdiv div, (mul * r.lly).fdiv div, (mul * r.urx).fdiv div, (mul * r.ury).fdiv div⟩

/-- `rational_scaling` (`checkers.py:14-25`): the assertion on the box, the scaled terminals and
the number of errors. -/
def rationalScaling (mul div : Int) (bbox : Rect) (ts : List Shape) : Option (List Shape × Nat) :=
  if divides mul div bbox then
    some (ts.map (fun t => { t with rect := scaleRect mul div t.rect }),
      (ts.filter (fun t => !divides mul div t.rect)).length)
  else none

/-- The new name of a shape of a block (`checkers.py:140-150`). -/
def rename (fa : List (Name × Name)) (power : List Name) (b : Name) (t : Shape) : Shape :=
  let t1 : Shape := match t.net with
    | none => t
    | some nm =>
      let formal := slash b nm
      let dflt := if nm ∈ power then nm else formal
      { t with net := some ((fa.lookup formal).getD dflt) }
  match t1.device with
  | none => t1
  | some (a, c) => { t1 with net := some (slash b (a ++ ':' :: c)), device := some (slash b a, c) }

/-- The shapes of one block (`checkers.py:106-152`), in the units of the node, and the number of
errors. -/
def blockShapes (sf : Int) (fa : List (Name × Name)) (power : List Name) (b : Blk) :
    Option (List Shape × Nat) :=
  match b.layout with
  | none => some ([], 0)
  | some (bbox, ts) => do
    let (ts1, e) ← rationalScaling 2 sf bbox ts
    let ts2 := ts1.map (fun t => { t with rect := (b.tr.hitRect t.rect).canonical })
    let ts3 := ts2.map (rename fa power b.name)
    some (ts3.filter (fun t => t.layer ≠ "boundary"), e)

/-- The shapes of the nets (`checkers.py:157-215`). -/
def netShapes (n : Net) : List Shape := n.own.map (fun o => ⟨some n.name, o.1, o.2, none⟩)

/-- `gen_viewer_json` up to the checks (`checkers.py:28-275`): the terminals of the canvas and the
number of errors in scaling. -/
def assemble (sf : Int) (h : HN) : Option (List Shape × Nat) := do
  if ¬ (sf = 1 ∨ sf.fmod 2 = 0) then none
  let fa ← faMap h
  let rs ← h.blocks.mapM (blockShapes sf fa (h.power.map (·.name)))
  let ts := (rs.map (·.1)).flatten ++ (h.nets ++ h.power).flatMap netShapes
  let (ts1, e) ← rationalScaling sf 2 h.bbox ts
  some (ts1, (rs.map (·.2)).sum + e)

/-! ## Specification -/

/-- Pin `p` of the block named `b` is connected to the net named `n`. -/
def Connected (h : HN) (b p n : Name) : Prop :=
  ∃ net ∈ h.nets ++ h.power, net.name = n ∧ ∃ ip ib blk, Conn.block ip ib ∈ net.conns ∧
    h.blocks[ib]? = some blk ∧ blk.name = b ∧ blk.pins[ip]? = some p

/-- What a shape of the layout belongs to: a net of the node, or a net inside a block. -/
inductive Node
  | net (n : Name)
  | inner (b x : Name)
deriving DecidableEq, Repr

/-- The node of the net `x` of the layout of block `b`: the net its pin is connected to; a net that
is no connected pin is the power net of the node of the same name, or is inside the block. -/
def NodeOf (h : HN) (b x : Name) : Node → Prop
  | .net n => Connected h b x n ∨
      ((∀ n', ¬ Connected h b x n') ∧ n = x ∧ ∃ p ∈ h.power, p.name = x)
  | .inner b' x' => (∀ n', ¬ Connected h b x n') ∧ (∀ p ∈ h.power, p.name ≠ x) ∧ b' = b ∧ x' = x

/-- How a node is written. -/
def Node.show : Node → Name
  | .net n => n
  | .inner b x => b ++ "/".toList ++ x

/-- `r'` is the place of the rectangle `r` of the layout of a block, when the block is mirrored and
moved by `t`, whose offsets are in half nanometers and `sf` the number of units per nanometer. -/
def At (sf : Int) (t : Transformation) (r r' : Rect) : Prop :=
  2 * r'.llx = min (2 * t.sX * r.llx + sf * t.oX) (2 * t.sX * r.urx + sf * t.oX) ∧
  2 * r'.lly = min (2 * t.sY * r.lly + sf * t.oY) (2 * t.sY * r.ury + sf * t.oY) ∧
  2 * r'.urx = max (2 * t.sX * r.llx + sf * t.oX) (2 * t.sX * r.urx + sf * t.oX) ∧
  2 * r'.ury = max (2 * t.sY * r.lly + sf * t.oY) (2 * t.sY * r.ury + sf * t.oY)

/-- `s'` is the shape `s` of block `b` in the layout of the node. -/
structure Copy (sf : Int) (h : HN) (b : Blk) (s s' : Shape) : Prop where
  layer : s'.layer = s.layer
  place : At sf b.tr s.rect s'.rect
  unnamed : s.net = none → s.device = none → s'.net = none
  named : ∀ x, s.net = some x → s.device = none →
    ∃ n : Node, NodeOf h b.name x n ∧ s'.net = some n.show
  device : ∀ a c, s.device = some (a, c) →
    s'.net = some (b.name ++ "/".toList ++ a ++ ":".toList ++ c) ∧
      s'.device = some (b.name ++ "/".toList ++ a, c)

/-- Names are usable: no two blocks of one name, and no slash in the names of blocks. -/
structure Names (h : HN) : Prop where
  blocks : (h.blocks.map (·.name)).Nodup
  slash : ∀ b ∈ h.blocks, '/' ∉ b.name

/-! ## Proofs -/

theorem slash_inj {a b c d : Name} (ha : '/' ∉ a) (hc : '/' ∉ c) (h : slash a b = slash c d) :
    a = c ∧ b = d := by
  unfold slash at h
  induction a generalizing c with
  | nil =>
    cases c with
    | nil => simpa using h
    | cons x c =>
      simp only [List.nil_append, List.cons_append, List.cons.injEq] at h
      exact absurd (List.mem_cons_self ..) (h.1 ▸ hc)
  | cons x a ih =>
    cases c with
    | nil =>
      simp only [List.nil_append, List.cons_append, List.cons.injEq] at h
      exact absurd (List.mem_cons_self ..) (h.1 ▸ ha)
    | cons y c =>
      simp only [List.cons_append, List.cons.injEq] at h
      obtain ⟨h1, h2⟩ := ih (fun hm => ha (List.mem_cons_of_mem _ hm))
        (fun hm => hc (List.mem_cons_of_mem _ hm)) h.2
      exact ⟨by rw [h.1, h1], h2⟩

/-- What a connection adds to the map. -/
def Adds (h : HN) (net : Name) (c : Conn) (e : Name × Name) : Prop :=
  ∃ pin blk b p, c = .block pin blk ∧ h.blocks[blk]? = some b ∧ b.pins[pin]? = some p ∧
    e = (slash b.name p, net)

theorem faConn_spec (h : HN) (net : Name) (m m' : List (Name × Name)) (c : Conn)
    (hc : faConn h net m c = some m') :
    ((m.map (·.1)).Nodup → (m'.map (·.1)).Nodup) ∧
      ∀ e, e ∈ m' ↔ e ∈ m ∨ Adds h net c e := by
  cases c with
  | block pin blk =>
    simp only [faConn, Option.bind_eq_bind, Option.bind_eq_some_iff] at hc
    obtain ⟨b, hb, p, hp, hi⟩ := hc
    split at hi
    · cases hi
    · rename_i hn
      cases hi
      constructor
      · intro hd
        rw [List.map_append, List.nodup_append]
        refine ⟨hd, by simp, ?_⟩
        intro x hx y hy he
        simp only [List.map_cons, List.map_nil, List.mem_singleton] at hy
        rw [he, hy] at hx
        exact hn hx
      · intro e
        rw [List.mem_append, List.mem_singleton]
        refine or_congr_right ⟨fun he => ⟨pin, blk, b, p, rfl, hb, hp, he⟩, ?_⟩
        rintro ⟨pin', blk', b', p', h1, h2, h3, h4⟩
        cases h1
        rw [hb] at h2
        cases h2
        rw [hp] at h3
        cases h3
        exact h4
  | terminal i =>
    simp only [faConn, Option.bind_eq_bind, Option.bind_eq_some_iff] at hc
    obtain ⟨t, _, hi⟩ := hc
    split at hi
    · cases hi
      refine ⟨id, fun e => ⟨Or.inl, ?_⟩⟩
      rintro (he | ⟨_, _, _, _, h1, _⟩)
      · exact he
      · cases h1
    · cases hi

theorem faNet_spec (h : HN) (net : Name) (cs : List Conn) : ∀ (m m' : List (Name × Name)),
    cs.foldlM (faConn h net) m = some m' →
    ((m.map (·.1)).Nodup → (m'.map (·.1)).Nodup) ∧
      ∀ e, e ∈ m' ↔ e ∈ m ∨ ∃ c ∈ cs, Adds h net c e := by
  induction cs with
  | nil =>
    intro m m' hm
    cases hm
    simp
  | cons c cs ih =>
    intro m m' hm
    rw [List.foldlM_cons] at hm
    simp only [Option.bind_eq_bind, Option.bind_eq_some_iff] at hm
    obtain ⟨m1, h1, h2⟩ := hm
    obtain ⟨a1, a2⟩ := faConn_spec h net m m1 c h1
    obtain ⟨b1, b2⟩ := ih m1 m' h2
    refine ⟨b1 ∘ a1, fun e => ?_⟩
    rw [b2, a2, or_assoc]
    simp only [List.mem_cons, exists_eq_or_imp]

theorem faMap_spec (h : HN) (fa : List (Name × Name)) (hf : faMap h = some fa) :
    (fa.map (·.1)).Nodup ∧ ∀ e, e ∈ fa ↔
      ∃ net ∈ h.nets ++ h.power, ∃ c ∈ net.conns, Adds h net.name c e := by
  have key : ∀ (ns : List Net) (m m' : List (Name × Name)),
      ns.foldlM (fun m n => n.conns.foldlM (faConn h n.name) m) m = some m' →
      ((m.map (·.1)).Nodup → (m'.map (·.1)).Nodup) ∧
        ∀ e, e ∈ m' ↔ e ∈ m ∨ ∃ net ∈ ns, ∃ c ∈ net.conns, Adds h net.name c e := by
    intro ns
    induction ns with
    | nil =>
      intro m m' hm
      cases hm
      simp
    | cons n ns ih =>
      intro m m' hm
      rw [List.foldlM_cons] at hm
      simp only [Option.bind_eq_bind, Option.bind_eq_some_iff] at hm
      obtain ⟨m1, h1, h2⟩ := hm
      obtain ⟨a1, a2⟩ := faNet_spec h n.name n.conns m m1 h1
      obtain ⟨b1, b2⟩ := ih m1 m' h2
      refine ⟨b1 ∘ a1, fun e => ?_⟩
      rw [b2, a2, or_assoc]
      simp only [List.mem_cons, exists_eq_or_imp]
  obtain ⟨k1, k2⟩ := key _ _ _ hf
  refine ⟨k1 (by simp), fun e => ?_⟩
  rw [k2]
  simp

theorem fa_connected (h : HN) (hn : Names h) (fa : List (Name × Name)) (hf : faMap h = some fa)
    (b x n : Name) (hb : '/' ∉ b) : fa.lookup (slash b x) = some n ↔ Connected h b x n := by
  obtain ⟨h1, h2⟩ := faMap_spec h fa hf
  rw [Hier.lookup_iff_mem h1, h2]
  unfold Connected Adds
  constructor
  · rintro ⟨net, hnet, c, hc, pin, blk, b', p, rfl, hb', hp, he⟩
    simp only [Prod.mk.injEq] at he
    obtain ⟨e1, e2⟩ := slash_inj hb (hn.slash b' (List.mem_of_getElem? hb')) he.1
    exact ⟨net, hnet, he.2.symm, pin, blk, b', hc, hb', e1.symm, by rw [e2]; exact hp⟩
  · rintro ⟨net, hnet, rfl, pin, blk, b', hc, hb', rfl, hp⟩
    exact ⟨net, hnet, _, hc, pin, blk, b', x, rfl, hb', hp, rfl⟩

theorem slash_show (a b : Name) : slash a b = a ++ "/".toList ++ b := by
  unfold slash
  rw [show "/".toList = ['/'] from rfl, List.append_assoc]
  rfl

theorem fdiv_back (sf c : Int) (hsf : sf ≠ 0) (h : (2 * c).fmod sf = 0) :
    sf * (2 * c).fdiv sf = 2 * c := by
  have := Int.mul_fdiv_add_fmod (2 * c) sf
  rw [h, add_zero] at this
  exact this

theorem fdiv_two (sf c : Int) (h : (sf * c).fmod 2 = 0) : 2 * (sf * c).fdiv 2 = sf * c := by
  have := Int.mul_fdiv_add_fmod (sf * c) 2
  rw [h, add_zero] at this
  exact this

theorem place_of (sf : Int) (hsf : 0 < sf) (t : Transformation) (r : Rect)
    (h1 : divides 2 sf r = true)
    (h2 : divides sf 2 (t.hitRect (scaleRect 2 sf r)).canonical = true) :
    At sf t r (scaleRect sf 2 (t.hitRect (scaleRect 2 sf r)).canonical) := by
  unfold divides at h1 h2
  simp only [Bool.and_eq_true, decide_eq_true_eq] at h1 h2
  obtain ⟨⟨⟨a1, a2⟩, a3⟩, a4⟩ := h1
  obtain ⟨⟨⟨b1, b2⟩, b3⟩, b4⟩ := h2
  have hm : ∀ x y : Int, sf * min x y = min (sf * x) (sf * y) := fun x y =>
    mul_min_of_nonneg x y hsf.le
  have hM : ∀ x y : Int, sf * max x y = max (sf * x) (sf * y) := fun x y =>
    mul_max_of_nonneg x y hsf.le
  have e : ∀ s o c : Int, (2 * c).fmod sf = 0 →
      sf * (s * (2 * c).fdiv sf + o) = 2 * s * c + sf * o := by
    intro s o c hc
    have := fdiv_back sf c hsf.ne' hc
    linear_combination s * this
  refine ⟨(fdiv_two _ _ b1).trans ?_, (fdiv_two _ _ b2).trans ?_, (fdiv_two _ _ b3).trans ?_,
    (fdiv_two _ _ b4).trans ?_⟩ <;>
  simp only [Geometry.canonical_eq, Transformation.hitRect, Transformation.hit, scaleRect, hm, hM,
    e _ _ _ a1, e _ _ _ a2, e _ _ _ a3, e _ _ _ a4]

theorem scaling_ok {mul div : Int} {bbox : Rect} {ts ts' : List Shape}
    (h : rationalScaling mul div bbox ts = some (ts', 0)) :
    ts' = ts.map (fun t => { t with rect := scaleRect mul div t.rect }) ∧
      ∀ t ∈ ts, divides mul div t.rect = true := by
  unfold rationalScaling at h
  split at h
  · simp only [Option.some.injEq, Prod.mk.injEq] at h
    refine ⟨h.1.symm, ?_⟩
    have := List.length_eq_zero_iff.1 h.2
    rw [List.filter_eq_nil_iff] at this
    intro t ht
    simpa using this t ht
  · cases h

theorem rename_layer (fa : List (Name × Name)) (power : List Name) (b : Name) (t : Shape) :
    (rename fa power b t).layer = t.layer ∧ (rename fa power b t).rect = t.rect := by
  unfold rename
  cases t.net <;> cases hd : t.device <;> simp [hd]

/-- The shapes of one block in the result. -/
theorem block_copy (sf : Int) (hsf : 0 < sf) (h : HN) (hn : Names h) (fa : List (Name × Name))
    (hf : faMap h = some fa) (b : Blk) (hb : b ∈ h.blocks) (ss : List Shape)
    (hs : blockShapes sf fa (h.power.map (·.name)) b = some (ss, 0))
    (hd : ∀ s ∈ ss, divides sf 2 s.rect = true) (bbox : Rect) (ts : List Shape)
    (hl : b.layout = some (bbox, ts)) :
    List.Forall₂ (Copy sf h b) (ts.filter (fun t => t.layer ≠ "boundary"))
      (ss.map (fun t => { t with rect := scaleRect sf 2 t.rect })) := by
  unfold blockShapes at hs
  rw [hl] at hs
  simp only [Option.bind_eq_bind, Option.bind_eq_some_iff, Option.some.injEq, Prod.mk.injEq,
    Prod.exists] at hs
  obtain ⟨ts1, e, h1, h2, rfl⟩ := hs
  obtain ⟨h3, h4⟩ := scaling_ok h1
  subst h3
  rw [List.map_map, List.map_map, List.filter_map] at h2
  have hfil : ∀ f : Shape → Shape, (∀ t, (f t).layer = t.layer) →
      ts.filter ((fun t : Shape => decide (t.layer ≠ "boundary")) ∘ f) =
      ts.filter (fun t => t.layer ≠ "boundary") := by
    intro f hf
    apply List.filter_congr
    intro t _
    simp only [Function.comp_apply, hf]
  rw [hfil _ (fun t => by simp only [Function.comp_apply, (rename_layer ..).1])] at h2
  subst h2
  rw [List.map_map, List.forall₂_map_right_iff]
  rw [List.forall₂_same]
  intro t ht
  have ht' := (List.mem_filter.1 ht).1
  have hbs := hn.slash b hb
  have hplace : At sf b.tr t.rect (scaleRect sf 2 (b.tr.hitRect (scaleRect 2 sf t.rect)).canonical) := by
    apply place_of sf hsf _ _ (h4 t ht')
    have := hd _ (List.mem_map.2 ⟨t, ht, rfl⟩)
    simpa only [Function.comp_apply, (rename_layer ..).2] using this
  have hlook := fun x n => fa_connected h hn fa hf b.name x n hbs
  constructor
  · simp only [Function.comp_apply, (rename_layer ..).1]
  · simpa only [Function.comp_apply, (rename_layer ..).2] using hplace
  · intro hnet hdev
    simp only [Function.comp_apply, rename, hnet, hdev]
  · intro x hnet hdev
    simp only [Function.comp_apply, rename, hnet, hdev]
    cases hc : fa.lookup (slash b.name x) with
    | some n =>
      exact ⟨.net n, Or.inl ((hlook x n).1 hc), rfl⟩
    | none =>
      have hno : ∀ n', ¬ Connected h b.name x n' := by
        intro n' hcn
        rw [(hlook x n').2 hcn] at hc
        cases hc
      simp only [Option.getD_none]
      split
      · rename_i hp
        obtain ⟨p, hp1, hp2⟩ := List.mem_map.1 hp
        exact ⟨.net x, Or.inr ⟨hno, rfl, p, hp1, hp2⟩, rfl⟩
      · rename_i hp
        refine ⟨.inner b.name x, ⟨hno, ?_, rfl, rfl⟩, ?_⟩
        · intro p hp1 hp2
          exact hp (List.mem_map.2 ⟨p, hp1, hp2⟩)
        · rw [slash_show]
          rfl
  · intro a c hdev
    simp only [Function.comp_apply, rename]
    cases t.net <;> simp [hdev, slash_show]

theorem sum_zero {l : List Nat} (h : l.sum = 0) : ∀ x ∈ l, x = 0 := by
  induction l with
  | nil => simp
  | cons a l ih =>
    simp only [List.sum_cons] at h
    intro x hx
    rcases List.mem_cons.1 hx with rfl | hx
    · omega
    · exact ih (by omega) x hx

theorem forall₂_both {α β : Type} {R S : α → β → Prop} {l : List α} {m : List β}
    (hf : List.Forall₂ R l m) (hi : ∀ a ∈ l, ∀ b ∈ m, R a b → S a b) : List.Forall₂ S l m := by
  induction hf with
  | nil => exact .nil
  | cons h _ ih =>
    exact .cons (hi _ (List.mem_cons_self ..) _ (List.mem_cons_self ..) h)
      (ih fun a ha b hb => hi a (List.mem_cons_of_mem _ ha) b (List.mem_cons_of_mem _ hb))

/-- C92: in a layout without errors, the shapes are, in this order, those of the blocks, each at
its place and with the name of what it is connected to, and those of the nets. -/
theorem C92_shapes (sf : Int) (hsf : 0 < sf) (h : HN) (hn : Names h) (out : List Shape)
    (ha : assemble sf h = some (out, 0)) :
    ∃ parts own : List (List Shape), out = parts.flatten ++ own.flatten ∧
      List.Forall₂ (fun b part => (b.layout = none → part = []) ∧
        ∀ bbox ts, b.layout = some (bbox, ts) →
          List.Forall₂ (Copy sf h b) (ts.filter (fun t => t.layer ≠ "boundary")) part)
        h.blocks parts ∧
      List.Forall₂ (fun n part => List.Forall₂ (fun o s => s.net = some n.name ∧ s.device = none ∧
        s.layer = o.1 ∧ 2 * s.rect.llx = sf * o.2.llx ∧ 2 * s.rect.lly = sf * o.2.lly ∧
        2 * s.rect.urx = sf * o.2.urx ∧ 2 * s.rect.ury = sf * o.2.ury) n.own part)
        (h.nets ++ h.power) own := by
  unfold assemble at ha
  split at ha
  · cases ha
  simp only [Option.bind_eq_bind, Option.bind_eq_some_iff, Option.some.injEq, Prod.mk.injEq,
    Prod.exists] at ha
  obtain ⟨fa, hf, rs, hr, ts1, e, hsc, rfl, he⟩ := ha
  have he0 : e = 0 := by omega
  subst he0
  have hz := sum_zero (show (rs.map (·.2)).sum = 0 by omega)
  obtain ⟨h1, h2⟩ := scaling_ok hsc
  have hf2 := Hier.mapM_forall₂ hr
  refine ⟨rs.map (fun r => r.1.map (fun t => { t with rect := scaleRect sf 2 t.rect })),
    (h.nets ++ h.power).map (fun n => (netShapes n).map
      (fun t => { t with rect := scaleRect sf 2 t.rect })), ?_, ?_, ?_⟩
  · rw [h1, List.map_append, List.map_flatten, List.map_map, List.map_flatMap, List.flatMap_def]
    rfl
  · rw [List.forall₂_map_right_iff]
    have hmem : ∀ r ∈ rs, r.2 = 0 ∧ ∀ s ∈ r.1, divides sf 2 s.rect = true := by
      intro r hr
      refine ⟨hz _ (List.mem_map.2 ⟨r, hr, rfl⟩), fun s hs => h2 s ?_⟩
      exact List.mem_append_left _ (List.mem_flatten.2 ⟨_, List.mem_map.2 ⟨r, hr, rfl⟩, hs⟩)
    refine forall₂_both hf2 (fun b hb r hr hbr => ⟨?_, ?_⟩)
    · intro hl
      unfold blockShapes at hbr
      rw [hl] at hbr
      cases hbr
      rfl
    · intro bbox ts hl
      obtain ⟨m1, m2⟩ := hmem r hr
      exact block_copy sf hsf h hn fa hf b hb r.1 (by rw [hbr, ← m1]) m2 bbox ts hl
  · rw [List.forall₂_map_right_iff, List.forall₂_same]
    intro n hnn
    unfold netShapes
    rw [List.map_map, List.forall₂_map_right_iff, List.forall₂_same]
    intro o ho
    have hdv := h2 ⟨some n.name, o.1, o.2, none⟩ (List.mem_append_right _
      (List.mem_flatMap.2 ⟨n, hnn, List.mem_map.2 ⟨o, ho, rfl⟩⟩))
    unfold divides at hdv
    simp only [Bool.and_eq_true, decide_eq_true_eq] at hdv
    obtain ⟨⟨⟨b1, b2⟩, b3⟩, b4⟩ := hdv
    exact ⟨rfl, rfl, rfl, fdiv_two _ _ b1, fdiv_two _ _ b2, fdiv_two _ _ b3, fdiv_two _ _ b4⟩

/-- The net of a block is in one node at most. -/
theorem node_unique (h : HN) (hn : Names h) (fa : List (Name × Name)) (hf : faMap h = some fa)
    (b x : Name) (hb : '/' ∉ b) (m n : Node) (h1 : NodeOf h b x m) (h2 : NodeOf h b x n) :
    m = n := by
  have hu : ∀ u v, Connected h b x u → Connected h b x v → u = v := by
    intro u v hu hv
    have e1 := (fa_connected h hn fa hf b x u hb).2 hu
    have e2 := (fa_connected h hn fa hf b x v hb).2 hv
    rw [e1] at e2
    exact Option.some.inj e2
  cases m with
  | net u =>
    cases n with
    | net v =>
      rcases h1 with h1 | ⟨h1, rfl, _⟩ <;> rcases h2 with h2 | ⟨h2, rfl, _⟩
      · rw [hu u v h1 h2]
      · exact absurd h1 (h2 u)
      · exact absurd h2 (h1 v)
      · rfl
    | inner c y =>
      obtain ⟨g1, g2, _, _⟩ := h2
      rcases h1 with h1 | ⟨_, rfl, p, hp, he⟩
      · exact absurd h1 (g1 u)
      · exact absurd he (g2 p hp)
  | inner c y =>
    obtain ⟨g1, g2, g3, g4⟩ := h1
    cases n with
    | net v =>
      rcases h2 with h2 | ⟨_, rfl, p, hp, he⟩
      · exact absurd h2 (g1 v)
      · exact absurd he (g2 p hp)
    | inner c' y' =>
      obtain ⟨_, _, e3, e4⟩ := h2
      rw [g3, g4, e3, e4]

/-- C92: two shapes of blocks get the same name exactly if they belong to the same node: they are
on the same net of the same block, or they are connected to the same net. -/
theorem C92_nets (sf : Int) (h : HN) (hn : Names h)
    (hnet : ∀ n ∈ h.nets ++ h.power, '/' ∉ n.name) (out : List Shape) (k : Nat)
    (ha : assemble sf h = some (out, k))
    (b c : Blk) (hb : b ∈ h.blocks) (hc : c ∈ h.blocks) (s s' t t' : Shape) (x y : Name)
    (hs : Copy sf h b s s') (ht : Copy sf h c t t') (hx : s.net = some x) (hy : t.net = some y)
    (hsd : s.device = none) (htd : t.device = none) :
    s'.net = t'.net ↔ (b = c ∧ x = y) ∨
      ∃ n : Name, NodeOf h b.name x (.net n) ∧ NodeOf h c.name y (.net n) := by
  obtain ⟨m, hm1, hm2⟩ := hs.named x hx hsd
  obtain ⟨n, hn1, hn2⟩ := ht.named y hy htd
  have hfa : ∃ fa, faMap h = some fa := by
    unfold assemble at ha
    split at ha
    · cases ha
    simp only [Option.bind_eq_bind, Option.bind_eq_some_iff] at ha
    obtain ⟨fa, hf, _⟩ := ha
    exact ⟨fa, hf⟩
  obtain ⟨fa, hf⟩ := hfa
  have hconn : ∀ b x n, Connected h b x n → '/' ∉ n := by
    rintro b x n ⟨net, hne, rfl, _⟩
    exact hnet net hne
  have hns : ∀ b x n, NodeOf h b x (.net n) → '/' ∉ n := by
    rintro b x n (hcn | ⟨_, rfl, p, hp, he⟩)
    · exact hconn b x n hcn
    · exact he ▸ hnet p (List.mem_append_right _ hp)
  constructor
  · intro he
    rw [hm2, hn2] at he
    have he := Option.some.inj he
    have hmn : m = n := by
      have hin : ∀ b x b' x', NodeOf h b x (.inner b' x') → b' = b ∧ x' = x :=
        fun b x b' x' hh => hh.2.2
      cases m with
      | net u =>
        cases n with
        | net v => rw [show u = v from he]
        | inner c' y' =>
          refine absurd ?_ (hns _ _ _ hm1)
          rw [show u = c' ++ "/".toList ++ y' from he]
          simp
      | inner b' x' =>
        cases n with
        | net v =>
          refine absurd ?_ (hns _ _ _ hn1)
          rw [← show b' ++ "/".toList ++ x' = v from he]
          simp
        | inner c' y' =>
          obtain ⟨e1, e2⟩ := hin _ _ _ _ hm1
          obtain ⟨e3, e4⟩ := hin _ _ _ _ hn1
          have hse : slash b' x' = slash c' y' := by
            rw [slash_show, slash_show]
            exact he
          obtain ⟨e5, e6⟩ := slash_inj (e1 ▸ hn.slash b hb) (e3 ▸ hn.slash c hc) hse
          rw [e5, e6]
    subst hmn
    cases m with
    | net u => exact Or.inr ⟨u, hm1, hn1⟩
    | inner b' x' =>
      have e1 := hm1.2.2
      have e2 := hn1.2.2
      exact Or.inl ⟨List.inj_on_of_nodup_map hn.blocks hb hc (e1.1.symm.trans e2.1),
        e1.2.symm.trans e2.2⟩
  · rintro (⟨rfl, rfl⟩ | ⟨n', h1, h2⟩)
    · rw [hm2, hn2, node_unique h hn fa hf _ _ (hn.slash b hb) _ _ hm1 hn1]
    · rw [hm2, hn2, node_unique h hn fa hf _ _ (hn.slash b hb) _ _ hm1 h1,
        node_unique h hn fa hf _ _ (hn.slash c hc) _ _ hn1 h2]

/-- A resistor with pins `a` and `b`, used twice in series, the second one mirrored: the two
blocks share the net `m`. -/
def series : HN :=
  let lay : Rect × List Shape := (⟨0, 0, 400, 200⟩,
    [⟨some ['a'], "M1", ⟨0, 0, 20, 200⟩, none⟩, ⟨some ['b'], "M1", ⟨380, 0, 400, 200⟩, none⟩,
     ⟨some ['x'], "M2", ⟨100, 0, 300, 20⟩, none⟩, ⟨none, "boundary", ⟨0, 0, 400, 200⟩, none⟩,
     ⟨none, "M1", ⟨40, 0, 60, 20⟩, some (['r'], ['P'])⟩])
  { nets := [⟨['i'], [.terminal 0, .block 0 0], []⟩, ⟨['m'], [.block 1 0, .block 1 1],
      [("M2", ⟨60, 0, 100, 4⟩)]⟩, ⟨['o'], [.block 0 1, .terminal 1], []⟩]
    power := []
    blocks := [⟨['u'], [['a'], ['b']], ⟨0, 0, 1, 1⟩, some lay⟩,
      ⟨['v'], [['a'], ['b']], ⟨160, 0, -1, 1⟩, some lay⟩]
    terminals := [['i'], ['o']]
    bbox := ⟨0, 0, 160, 40⟩ }

/-- The hypotheses of `C92_shapes` and `C92_nets` can be met, and the result is as expected. -/
example : Names series ∧ (∀ n ∈ series.nets ++ series.power, '/' ∉ n.name) ∧
    assemble 10 series = some
      ([⟨some ['i'], "M1", ⟨0, 0, 20, 200⟩, none⟩, ⟨some ['m'], "M1", ⟨380, 0, 400, 200⟩, none⟩,
        ⟨some "u/x".toList, "M2", ⟨100, 0, 300, 20⟩, none⟩,
        ⟨some "u/r:P".toList, "M1", ⟨40, 0, 60, 20⟩, some ("u/r".toList, ['P'])⟩,
        ⟨some ['o'], "M1", ⟨780, 0, 800, 200⟩, none⟩, ⟨some ['m'], "M1", ⟨400, 0, 420, 200⟩, none⟩,
        ⟨some "v/x".toList, "M2", ⟨500, 0, 700, 20⟩, none⟩,
        ⟨some "v/r:P".toList, "M1", ⟨740, 0, 760, 20⟩, some ("v/r".toList, ['P'])⟩,
        ⟨some ['m'], "M2", ⟨300, 0, 500, 20⟩, none⟩], 0) :=
  ⟨⟨by decide +kernel, by decide +kernel⟩, by decide +kernel, by decide +kernel⟩

end Verif.Assemble

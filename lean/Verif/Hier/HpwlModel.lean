import Verif.Hier.Model

/-! # Half-perimeter wire length: `align/pnr/hpwl.py` -/

namespace Verif.Hier

open Verif.Geometry (Rect Transformation)

/-- `hpwl.py:13-27`, `Interval`: `m` and `M` are set together, so the pair is optional. -/
abbrev Interval := Option (Int × Int)

/-- `hpwl.py:17-21`. -/
def Interval.add (i : Interval) (v : Int) : Interval :=
  match i with
  | none => some (v, v)
  | some (m, M) => some (if v < m then v else m, if v > M then v else M)

/-- `hpwl.py:23-24`. -/
def Interval.dist : Interval → Int
  | none => 0
  | some (m, M) => M - m

/-- `hpwl.py:29-61`, `SemiPerimeter`. -/
structure SP where
  ix : Interval
  iy : Interval
deriving DecidableEq, Repr

def SP.empty : SP := ⟨none, none⟩

/-- `hpwl.py:39-44`. -/
def SP.addRect (s : SP) (r : Rect) : SP :=
  ⟨Interval.add (Interval.add s.ix r.llx) r.urx, Interval.add (Interval.add s.iy r.lly) r.ury⟩

/-- `hpwl.py:46-47`. -/
def SP.dist (s : SP) : Int := s.ix.dist + s.iy.dist

/-- `hpwl.py:59-61`; `toList` only when not empty. -/
def SP.update (s other : SP) (tr : Transformation) : SP :=
  match other.ix, other.iy with
  | some (m, M), some (n, N) => s.addRect (tr.hitRect ⟨m, n, M, N⟩).canonical
  | _, _ => s

/-! ## Netlist (`hpwl.py:63-98`) -/

/-- A net: the path of instance names to the module it belongs to, followed by its name there. -/
abbrev Net := List String

/-- A pin: the path of instance names to a leaf instance, followed by the name of the terminal. -/
abbrev Pin := List String

/-- `hpwl.py:84`. -/
def newActual (D : Design) (pre : List String) (tmap : List (String × Net)) (a : String) : Net :=
  if a ∈ D.globals then [a] else (tmap.lookup a).getD (pre ++ [a])

/-- `hpwl.py:81-85`, `gen_pair`. -/
def genPair (D : Design) (pre : List String) (tmap : List (String × Net)) (i : Inst) : List (String × Net) :=
  i.fa.map fun fa => (fa.1, newActual D pre tmap fa.2)

/-- `hpwl.py:69-94`, `aux`: the pins found, with their nets, in the order in which they are appended. `tmap` is the
dictionary `translate_d`: `dict(gen_pair())` keeps the last pair of a formal that occurs twice, hence `reverse`. -/
def netAux (D : Design) : Nat → Module → List String → List (String × Net) → Option (List (Net × Pin))
  | 0, _, _, _ => none
  | fuel + 1, m, pre, tmap =>
    if (tmap.all fun e => e.1 ∈ m.params) && (pre.isEmpty || m.params.all fun p => (tmap.lookup p).isSome) then
      (m.insts.mapM fun (i : Inst) =>
        match D.mods.lookup i.template with
        | some sub => netAux D fuel sub (pre ++ [i.name]) (genPair D pre tmap i).reverse
        | none => some ((genPair D pre tmap i).map fun (e : String × Net) => (e.2, pre ++ [i.name, e.1]))).map List.flatten
    else none

/-- `hpwl.py:63-98`, `gen_netlist`: the dictionary `nets_d`. -/
def genNetlist (D : Design) (fuel : Nat) (top : String) : Option (List (Net × List Pin)) :=
  (D.mods.lookup top).bind fun m => (netAux D fuel m [] []).map fun es =>
    es.foldl (fun tbl e => Verif.RemoveDup.addBin e.1 e.2 tbl) []

/-! ## Top down (`hpwl.py:106-138`) -/

/-- `leaf_terminals[(ctn, pin)]`, lines 111-116. -/
def terminalRects (D : Design) (leaf pin : String) : List Rect :=
  ((D.leaves.lookup leaf).map fun l => (l.terminals.filter fun t => decide (t.1 = pin)).map Prod.snd).getD []

/-- Lines 124-128: the walk along the instance names of a pin, without its last entry. -/
def walk (D : Design) : String → Transformation → List String → Option (String × Transformation)
  | ctn, tr, [] => some (ctn, tr)
  | ctn, tr, n :: ns =>
    (D.mods.lookup ctn).bind fun m => (m.insts.find? fun i => decide (i.name = n)).bind fun i =>
      walk D i.template (tr.postMult i.tr) ns

/-- Lines 123-132: the rectangles of one pin in top coordinates. -/
def pinRects (D : Design) (top : String) (pin : Pin) : Option (List Rect) :=
  (walk D top {} pin.dropLast).bind fun w =>
    (pin.getLast?).map fun f => (terminalRects D w.1 f).map fun r => (w.2.hitRect r).canonical

/-- Lines 121-136: one net. -/
def netDist (D : Design) (top : String) (pins : List Pin) : Option Int :=
  (pins.mapM (pinRects D top)).map fun rs => (rs.flatten.foldl SP.addRect SP.empty).dist

/-- Line 120: global nets that are skipped. -/
def skipped (D : Design) (skip : Bool) (n : Net) : Bool :=
  skip && match n with
    | [a] => decide (a ∈ D.globals)
    | _ => false

/-- `hpwl.py:106-138`. -/
def topDown (D : Design) (top : String) (nets : List (Net × List Pin)) (skip : Bool) : Option Int :=
  ((nets.filter fun n => !skipped D skip n.1).mapM fun n => netDist D top n.2).map List.sum

/-! ## Bottom up (`hpwl.py:157-223`) -/

/-- `net_bboxes` and `net_local_hpwls`, as functions. An entry of `net_bboxes` that does not exist is an empty one
(it is a `defaultdict`; the test for membership in line 200 only avoids work). -/
structure Tables where
  box : String → String → SP
  hpwl : String → Option Int

/-- `net_bboxes[(cn, a)].update(other, tr)`. -/
def Tables.update (t : Tables) (cn a : String) (other : SP) (tr : Transformation) : Tables :=
  { t with box := fun c b => if c = cn ∧ b = a then (t.box c b).update other tr else t.box c b }

/-- Lines 193-201: the boxes collected from one instance. -/
def instBoxes (D : Design) (cn : String) (t : Tables) (i : Inst) : Tables :=
  let t1 := i.fa.foldl (fun t fa => t.update cn fa.2 (t.box i.template fa.1) i.tr) t
  D.globals.foldl (fun t a => t.update cn a (t.box i.template a) i.tr) t1

/-- Line 203: the nets that end in this module. -/
def hiddenNets (D : Design) (m : Module) : List String :=
  ((m.insts.flatMap fun i => i.fa.map Prod.snd).eraseDups).filter fun a => !(m.params ++ D.globals).contains a

/-- Lines 180-208: one module of the order. -/
def bottomUpStep (D : Design) (t : Tables) (cn : String) : Tables :=
  match D.mods.lookup cn with
  | none => t
  | some m =>
    let t1 := m.insts.foldl (instBoxes D cn) t
    let h := (m.insts.map fun i => (t.hpwl i.template).getD 0).sum +
      ((hiddenNets D m).map fun a => (t1.box cn a).dist).sum
    { t1 with hpwl := fun c => if c = cn then some h else t1.hpwl c }

/-- `hpwl.py:157-223`. -/
def bottomUp (D : Design) (fuel : Nat) (top : String) (skip : Bool) : Option Int :=
  (topoOrder D fuel top).bind fun order =>
    let t0 : Tables := ⟨fun c a => (terminalRects D c a).foldl SP.addRect SP.empty, fun _ => none⟩
    let t := order.foldl (bottomUpStep D) t0
    (D.mods.lookup top).bind fun m => (t.hpwl top).map fun h =>
      h + (((m.params ++ D.globals).eraseDups.filter fun a => !(skip && D.globals.contains a)).map
        fun a => (t.box top a).dist).sum

end Verif.Hier

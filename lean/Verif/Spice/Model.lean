import Verif.Schema.Number

/-!
# C70: the SPICE parser

Model of align/schema/parser.py: the tokens (34-57, 79-85), `parse`, `_dispatch`, `_queue_constraint`, `_decompose`, `_cast`,
`_process_instance`, `_process_constraints` and `_process_declaration` (87-200), with what the constructors of `Model`, `SubCircuit`
and `Instance` check (align/schema/model.py 42-84, instance.py 55-92, library.py 25-30).

Simplifications: characters are ASCII.  The pattern of expressions in quotes or braces (EXPR) is a parameter: given the text, what
is left after a match.  Numbers are rationals; how Python prints a number is a parameter.  Whether a constraint can be evaluated
and added is a parameter, and constraints are kept as text.  The set of positions of `=` is walked in ascending order.
An exception is `none`.
-/

namespace Verif.Spice

open Verif.Schema (isDig str2float)

/-! ## Tokens -/

/-- `\s` -/
def isWs (c : Char) : Bool := [' ', '\t', '\n', '\r', '\x0b', '\x0c'].contains c

/-- `[\n\r]` -/
def isNl (c : Char) : Bool := c == '\n' || c == '\r'

/-- `[^\s{}()=;*]` (38) -/
def isId (c : Char) : Bool := !isWs c && !['{', '}', '(', ')', '=', ';', '*'].contains c

inductive Ty where
  | annotation | newl | equals | expr | number | decl | name
  deriving DecidableEq

structure Tok where
  ty : Ty
  val : List Char
  deriving DecidableEq

/-- `[;$]|//` at the beginning (41) -/
def comments : List Char → Bool
  | ';' :: _ => true
  | '$' :: _ => true
  | '/' :: '/' :: _ => true
  | _ => false

/-- `\*|[;$]|//` at the beginning -/
def leads : List Char → Bool
  | '*' :: _ => true
  | s => comments s

/-- What is left after `(\*|[;$]|//)*` -/
def dropLeaders : List Char → List Char
  | '*' :: r => dropLeaders r
  | ';' :: r => dropLeaders r
  | '$' :: r => dropLeaders r
  | '/' :: '/' :: r => dropLeaders r
  | s => s

/-- ANNOTATION (44): the text after `@:`, and what is left.  No part of the pattern can profit from a shorter match of an earlier
part. -/
def annotation (s : List Char) : Option (List Char × List Char) :=
  let s := s.dropWhile isWs
  if leads s then
    match (dropLeaders s).dropWhile isWs with
    | '@' :: ':' :: r =>
      let t := r.takeWhile isWs ++ (r.dropWhile isWs).takeWhile (!isNl ·)
      some (t, (r.dropWhile isWs).dropWhile (!isNl ·))
    | _ => none
  else none

/-- `(^|[\n\r])+` and then the given character (45, 47). -/
def atLine (start : Bool) (c : Char) (s : List Char) : Option (List Char) :=
  match s.dropWhile isNl with
  | d :: r => if d = c ∧ (start = true ∨ (s.head?.any isNl) = true) then some r else none
  | [] => none

/-- COMMENT (46) -/
def comment (s : List Char) : Option (List Char) :=
  let s := s.dropWhile isWs
  if comments s then some (s.dropWhile (!isNl ·)) else none

/-- CONTINUEBACKSLASH (48): up to the last line break in the blanks. -/
def backslash : List Char → Option (List Char)
  | '\\' :: r =>
    let w := r.takeWhile isWs
    if w.any isNl then some ((w.reverse.takeWhile (!isNl ·)).reverse ++ r.dropWhile isWs) else none
  | _ => none

/-- EQUALS (50) -/
def equals (s : List Char) : Option (List Char) :=
  match s.dropWhile isWs with
  | '=' :: r => some (r.dropWhile isWs)
  | _ => none

def dropSign : List Char → List Char
  | '+' :: r => r
  | '-' :: r => r
  | s => s

/-- `0|[1-9]\d*` -/
def intPart : List Char → Option (List Char)
  | [] => none
  | c :: r => if c = '0' then some r else if isDig c then some (r.dropWhile isDig) else none

/-- `(?:[.]\d+)?` -/
def fracPart : List Char → List Char
  | '.' :: r => if r.takeWhile isDig ≠ [] then r.dropWhile isDig else '.' :: r
  | s => s

/-- `(?:E[+\-]?\d+)?` -/
def expPart : List Char → List Char
  | c :: r => if (c = 'E' ∨ c = 'e') ∧ (dropSign r).takeWhile isDig ≠ [] then (dropSign r).dropWhile isDig else c :: r
  | [] => []

/-- `(?=\s|\Z|[;$]|//)` (52) -/
def ends (s : List Char) : Bool := s.isEmpty || (s.head?.any isWs) || comments s

def modifiers : List (List Char) :=
  ["T", "G", "X", "MEG", "K", "M", "U", "N", "P", "F"].map String.toList

/-- Python's `upper` -/
def up (s : List Char) : List Char := s.map Char.toUpper

/-- `(?:{modifiers})?` and the end (37, 52) -/
def unitPart (r : List Char) : Option (List Char) :=
  match modifiers.find? fun m => up (r.take m.length) = m && ends (r.drop m.length) with
  | some m => some (r.drop m.length)
  | none => if ends r then some r else none

/-- NUMBER (37, 52): what is left. -/
def number (s : List Char) : Option (List Char) :=
  (intPart (dropSign s)).bind fun r =>
    unitPart (expPart (fracPart r))

/-- The part of `s` before `r` -/
def upto (s r : List Char) : List Char := s.take (s.length - r.length)

/-- The alternatives EXPR, NUMBER, DECL, NAME and WS (51-56). -/
def wordStep (expr : List Char → Option (List Char)) (s : List Char) : Option (Option Tok × List Char) :=
  match expr s with
  | some r => some (some ⟨.expr, upto s r⟩, r)
  | none => match number s with
  | some r => some (some ⟨.number, upto s r⟩, r)
  | none =>
    if s.head? = some '.' ∧ s.tail.takeWhile isId ≠ [] then some (some ⟨.decl, '.' :: s.tail.takeWhile isId⟩, s.tail.dropWhile isId)
    else if s.takeWhile isId ≠ [] then some (some ⟨.name, s.takeWhile isId⟩, s.dropWhile isId)
    else if s.takeWhile isWs ≠ [] then some (none, s.dropWhile isWs)
    else none

/-- One match (43-57); `start` at the beginning of the text.  Comments, continuations and blanks give no token (83). -/
def step (expr : List Char → Option (List Char)) (start : Bool) (s : List Char) : Option (Option Tok × List Char) :=
  if s = [] then none
  else match annotation s with
  | some (t, r) => some (some ⟨.annotation, t⟩, r)
  | none => match atLine start '*' s with
  | some r => some (none, r.dropWhile (!isNl ·))
  | none => match comment s with
  | some r => some (none, r)
  | none => match atLine start '+' s with
  | some r => some (none, r)
  | none => match backslash s with
  | some r => some (none, r)
  | none => if s.head?.any isNl then some (some ⟨.newl, s.takeWhile isNl⟩, s.dropWhile isNl)
  else match equals s with
  | some r => some (some ⟨.equals, upto s r⟩, r)
  | none => wordStep expr s

def lexAux (expr : List Char → Option (List Char)) : Nat → Bool → List Char → List Tok
  | 0, _, _ => []
  | n + 1, start, s => match step expr start s with
    | none => []
    | some (t, r) => t.toList ++ lexAux expr n false r

/-- `_generate_tokens` (79-85): it ends where nothing matches. -/
def lex (expr : List Char → Option (List Char)) (start : Bool) (s : List Char) : List Tok := lexAux expr s.length start s

/-! ## Parser -/

/-- An argument: a number or a text. -/
inductive Val where
  | num (q : ℚ)
  | text (s : List Char)
  deriving DecidableEq

/-- `_cast` (125-137) of the text in upper case. -/
def cast (t : Tok) : Val :=
  match t.ty with
  | .expr => .text ((up t.val).drop 1).dropLast
  | .name => .text (up t.val)
  | _ => match str2float (up t.val) with
    | some (some q) => .num q
    | _ => .text (up t.val)

abbrev Dict := List (List Char × List Char)

/-- Setting a key of a dictionary. -/
def put {α : Type} (d : List (List Char × α)) (k : List Char) (v : α) : List (List Char × α) :=
  if (d.map Prod.fst).contains k then d.map fun e => if e.1 = k then (k, v) else e else d ++ [(k, v)]

def isEq (t : Option Tok) : Bool := t.any fun t => t.ty = .equals

/-- The positional arguments (121): no `=` before, at or after. -/
def positional : Option Tok → List Tok → List Tok
  | _, [] => []
  | prev, x :: r => (if isEq prev || isEq (some x) || isEq r.head? then [] else [x]) ++ positional (some x) r

/-- The assignments (119-120, 122); before the first token Python's index -1 finds the last one. -/
def assignments (last : Option Tok) : Option Tok → List Tok → Option (List (List Char × Val))
  | _, [] => some []
  | prev, x :: r =>
    if x.ty = .equals then
      (prev.or last).bind fun k => if k.ty = .name then
        r.head?.bind fun v => (assignments last (some x) r).map fun l => (up k.val, cast v) :: l
      else none
    else assignments last (some x) r

/-- `_decompose` (117-123) -/
def decompose (c : List Tok) : Option (List Val × List (List Char × Val)) :=
  if c.all fun t => t.ty = .name || t.ty = .number || t.ty = .expr || t.ty = .equals then
    (assignments c.getLast? none c).map fun l =>
      ((positional none c).map cast, l.foldl (fun d e => put d e.1 e.2) [])
  else none

structure Inst where
  name : List Char
  model : List Char
  pins : Dict
  params : Dict
  deriving DecidableEq

/-- A model or a subcircuit. -/
structure Entry where
  name : List Char
  pins : List (List Char)
  params : Dict
  pre : List Char
  sub : Bool
  elems : List Inst
  consts : List (List Char)
  deriving DecidableEq

structure St where
  lib : List Entry
  top : List Inst
  topParams : Dict
  /-- the open subcircuits -/
  scope : List (List Char)
  queue : Option (List (List Char))

/-- Parameters of the parser: expressions, printing of numbers, and whether a constraint is accepted. -/
structure Env where
  expr : List Char → Option (List Char)
  showNum : ℚ → List Char
  okConst : List Char → Bool

def Env.str (E : Env) : Val → List Char
  | .num q => E.showNum q
  | .text s => s

/-- `Library.find` (library.py 25-26); the name is in upper case. -/
def find (lib : List Entry) (n : List Char) : Option Entry := lib.find? fun e => e.name = n

/-- Adding an element to the current scope. -/
def addInst (st : St) (i : Inst) : St :=
  match st.scope with
  | [] => { st with top := st.top ++ [i] }
  | s :: _ => { st with lib := st.lib.map fun e => if e.name = s then { e with elems := e.elems ++ [i] } else e }

def pyNat (n : Nat) : List Char := (toString n).toList

/-- `Instance(...)` (instance.py 55-92): prefix, pins and parameters. -/
def makeInst (name : List Char) (m : Entry) (nets : List (List Char)) (ps : Dict) : Option Inst :=
  if nets.length = m.pins.length ∧ m.pre.isPrefixOf name = true ∧ (ps.all fun p => (m.params.map Prod.fst).contains p.1) = true then
    some ⟨name, m.name, (m.pins.zip nets).foldl (fun d e => put d e.1 e.2) [],
      m.params.map fun p => (p.1, (ps.lookup p.1).getD p.2)⟩
  else none

/-- `defaults` (140-142) -/
def defaultModel : Option Char → Option (List Char)
  | some 'C' => some "CAP".toList
  | some 'R' => some "RES".toList
  | some 'L' => some "IND".toList
  | _ => none

/-- The model and the parameters of an instance (141-149). -/
def modelOf (name : List Char) (args : List Val) (kw : List (List Char × Val)) : Option (Val × List Val × List (List Char × Val)) :=
  args.getLast?.map fun l =>
    match defaultModel name.head? with
    | some d => if kw = [] then (.text d, args.dropLast, [("VALUE".toList, l)]) else (l, args.dropLast, kw)
    | none => (l, args.dropLast, kw)

/-- `_process_instance` (139-176) -/
def instStep (E : Env) (st : St) (name : List Char) (args : List Val) (kw : List (List Char × Val)) : Option St :=
  (modelOf name args kw).bind fun x =>
    match x.1 with
    | .num _ => none
    | .text m =>
      let nets := x.2.1.map E.str
      let ps : Dict := x.2.2.map fun p => (p.1, E.str p.2)
      match find st.lib m with
      | some e => (makeInst name e nets ps).map (addInst st)
      | none =>
        if nets = [] ∨ m = [] then none
        else
          let e : Entry := ⟨m, (List.range nets.length).map fun i => 'P' :: pyNat i, ps.map fun p => (p.1, ['1']), [], false, [], []⟩
          (makeInst name e nets ps).map (addInst { st with lib := st.lib ++ [e] })

/-- `SubCircuit(...)` and `Library.append` (183-187; model.py 42-84; library.py 28-30) -/
def subckt (E : Env) (st : St) (args : List Val) (kw : List (List Char × Val)) : Option St :=
  match args with
  | .text n :: pins =>
    if pins = [] ∨ n = [] ∨ (find st.lib n).isSome = true then none
    else some { st with
      lib := st.lib ++ [⟨n, pins.map E.str, kw.map fun p => (p.1, E.str p.2), [], true, [], []⟩]
      scope := n :: st.scope
      queue := some [] }
  | _ => none

/-- `_process_constraints` and the end of the scope (178-182, 189-190) -/
def endSub (E : Env) (st : St) : Option St :=
  st.queue.bind fun q => if q.all E.okConst then
    match st.scope with
    | [] => none
    | s :: rest => some { st with
        lib := st.lib.map fun e => if e.name = s then { e with consts := e.consts ++ q } else e
        scope := rest
        queue := none }
  else none

/-- `.PARAM` (192-196) -/
def param (E : Env) (st : St) (kw : List (List Char × Val)) : St :=
  let upd (d : Dict) : Dict := kw.foldl (fun d p => put d p.1 (E.str p.2)) d
  match st.scope with
  | [] => { st with topParams := upd st.topParams }
  | s :: _ => { st with lib := st.lib.map fun e => if e.name = s then { e with params := upd e.params } else e }

/-- `.MODEL` (197-203) -/
def model (E : Env) (st : St) (args : List Val) (kw : List (List Char × Val)) : Option St :=
  match args with
  | [.text n, .text b] =>
    if n = [] ∨ (find st.lib n).isSome = true then none
    else (find st.lib b).map fun e => { st with
      lib := st.lib ++ [⟨n, e.pins, kw.foldl (fun d p => put d p.1 (E.str p.2)) e.params, e.pre, false, [], []⟩] }
  | _ => none

/-- `_dispatch` (101-112) and `_process_declaration` (184-203): other declarations are ignored. -/
def dispatch (E : Env) (st : St) : List Tok → Option St
  | [] => some st
  | t :: c => (decompose c).bind fun x =>
    if t.ty = .decl then
      let d := up t.val
      if d = ".SUBCKT".toList then subckt E st x.1 x.2
      else if d = ".ENDS".toList then endSub E st
      else if d = ".PARAM".toList then (if x.1 = [] then some (param E st x.2) else none)
      else if d = ".MODEL".toList then model E st x.1 x.2
      else some st
    else if t.ty = .name then instStep E st (up t.val) x.1 x.2
    else none

/-- The text before a second `@:`, without blanks at the ends (115). -/
def beforeAt : List Char → List Char
  | '@' :: ':' :: _ => []
  | c :: r => c :: beforeAt r
  | [] => []

def strip (s : List Char) : List Char := ((s.dropWhile isWs).reverse.dropWhile isWs).reverse

def queueConst (st : St) (t : List Char) : Option St :=
  st.queue.map fun q => { st with queue := some (q ++ [strip (beforeAt t)]) }

/-- The loop of `parse` (87-99) -/
def run (E : Env) : St → List Tok → List Tok → Option St
  | st, cache, [] => dispatch E st cache
  | st, cache, t :: ts =>
    if t.ty = .newl then (dispatch E st cache).bind fun st => run E st [] ts
    else if t.ty = .annotation then (dispatch E st cache).bind fun st => (queueConst st t.val).bind fun st => run E st [] ts
    else run E st (cache ++ [t]) ts

/-- `SpiceParser(library).parse(text)` -/
def parse (E : Env) (lib : List Entry) (text : List Char) : Option St :=
  run E ⟨lib, [], [], [], none⟩ [] (lex E.expr true text)

end Verif.Spice

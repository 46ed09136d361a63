import Verif.Spice.Props

/-! # C70: an example, and netlists that are not read as written -/

namespace Verif.Spice

open Verif.Schema

/-! ## The hypotheses of `C70_parse_partial` are met -/

def nmos : Entry := ⟨"NMOS".toList, ["D".toList, "G".toList, "S".toList], [("W".toList, "1".toList), ("L".toList, "1".toList)], "M".toList, false, [], []⟩
def cap : Entry := ⟨"CAP".toList, ["PLUS".toList, "MINUS".toList], [("VALUE".toList, "0".toList)], "C".toList, false, [], []⟩

def two : Literal := ⟨none, [2], none, none⟩
def ten : Literal := ⟨none, [1, 0], none, none⟩
def micro : Char × ℚ := ('u', 1 / 1000000)
def femto : Char × ℚ := ('f', 1 / 1000000000000000)

def nm (s : String) : Word := .name s.toList

def cardM : Card := ⟨"m1".toList, [nm "out", nm "in", nm "gnd", nm "nmos"], [("w".toList, .num two (some micro))]⟩
def cardC : Card := ⟨"C1".toList, [nm "out", nm "gnd", .num ten (some femto)], []⟩
def cardX : Card := ⟨"X1".toList, [nm "p", nm "q", nm "r", nm "amp"], []⟩
def headA : Card := ⟨"amp".toList, [nm "in", nm "out", nm "gnd"], []⟩

def itemsA : List Item := [.sub headA [.inst cardM, .inst cardC] ["GroupBlocks()".toList] [nm "amp"], .card cardX]

def ampA (showNum : ℚ → List Char) : Entry :=
  ⟨"AMP".toList, ["IN".toList, "OUT".toList, "GND".toList], [], [], true,
    [⟨"M1".toList, "NMOS".toList, [("D".toList, "OUT".toList), ("G".toList, "IN".toList), ("S".toList, "GND".toList)],
        [("W".toList, showNum (two.value * (1 / 1000000))), ("L".toList, "1".toList)]⟩,
      ⟨"C1".toList, "CAP".toList, [("PLUS".toList, "OUT".toList), ("MINUS".toList, "GND".toList)],
        [("VALUE".toList, showNum (ten.value * (1 / 1000000000000000)))]⟩],
    ["GroupBlocks()".toList]⟩

def designA (showNum : ℚ → List Char) : Design :=
  ⟨[nmos, cap, ampA showNum], [⟨"X1".toList, "AMP".toList, [("IN".toList, "P".toList), ("OUT".toList, "Q".toList), ("GND".toList, "R".toList)], []⟩], []⟩

/-- A title, a subcircuit with a constraint, a comment, a continued line and a value, and an instance. -/
def textA : List Char := ("* an amplifier\n.Subckt amp in out gnd\n* @: GroupBlocks()\n m1 out in gnd nmos ; input\n+ w = 2u\n" ++
  "C1 out gnd 10f\n.ENDS amp\n\nX1 p q r amp\n").toList

def exprNone : List Char → Option (List Char) := fun _ => none

theorem exprNone_ok : ExprOK exprNone := fun _ _ h => by simp [exprNone] at h

instance (s : List Char) : Decidable (Blanks s) := inferInstanceAs (Decidable (∀ c ∈ s, c = ' ' ∨ c = '\t'))
instance (s : List Char) : Decidable (Quiet s) := inferInstanceAs (Decidable (∀ c ∈ s, c ≠ '\n' ∧ c ≠ '\r' ∧ c ≠ '@'))

theorem meansA (showNum : ℚ → List Char) : Means showNum itemsA ⟨[nmos, cap], [], []⟩ (designA showNum) := by
  refine .sub headA _ _ _ (ampA showNum).elems [] _ _ _ (by decide) (by simp [headA]) ?_ ?_
  · refine .inst _ _ _ _ _ _ ?_ (.inst _ _ _ _ _ _ ?_ (.nil _))
    · refine .device nmos [nm "out", nm "in", nm "gnd"] "nmos".toList (by decide) rfl (by decide) (Or.inl (by simp [cardM])) rfl
        ⟨by decide, rfl, ⟨_, rfl⟩, ?_, rfl, rfl, rfl⟩
      intro p hp
      simp only [given, cardM, List.map_cons, List.map_nil, List.mem_singleton] at hp
      rw [hp]
      change "W".toList ∈ _
      decide
    · refine .value cap [nm "out", nm "gnd"] (.num ten (some femto)) (by decide) rfl (by simp [Word.isName]) rfl (by decide) rfl
        ⟨by decide, rfl, ⟨_, rfl⟩, ?_, rfl, rfl, rfl⟩
      intro p hp
      simp only [List.mem_singleton] at hp
      rw [hp]
      change "VALUE".toList ∈ _
      decide
  · refine .card _ _ _ _ _ ?_ (.nil _)
    refine .device (ampA showNum) [nm "p", nm "q", nm "r"] "amp".toList (List.mem_append.2 (Or.inr (List.mem_singleton.2 rfl))) rfl rfl
      (Or.inr (by decide)) rfl ⟨?_, rfl, ⟨_, rfl⟩, ?_, rfl, rfl, rfl⟩
    · change ["IN".toList, "OUT".toList, "GND".toList].Nodup
      decide
    · intro p hp
      simp [given, cardX] at hp

theorem nm_ok {s : String} (h1 : s.toList ≠ []) (h2 : ∀ c ∈ s.toList, c ∉ [' ', '\t', '\n', '\r', '\x0b', '\x0c', '{', '}', '(', ')', '=', ';', '*'])
    (h3 : ∀ c ∈ s.toList.head?, c ∉ ['.', '+', '-', '$', '/', '\\', '@', '\'', '"'] ∧ c ∉ ['0', '1', '2', '3', '4', '5', '6', '7', '8', '9']) :
    NameOK s.toList := ⟨h1, h2, h3⟩

theorem two_ok : NumOK two := ⟨⟨by decide, by intro e he; simp [two] at he⟩, Or.inr ⟨2, [], rfl, by decide⟩, by intro d hd; simp [two] at hd⟩
theorem ten_ok : NumOK ten := ⟨⟨by decide, by intro e he; simp [ten] at he⟩, Or.inr ⟨1, [0], rfl, by decide⟩, by intro d hd; simp [ten] at hd⟩

/-- One more word after a space. -/
theorem wd (w : Word) {ws : List Word} (s : List Char) {t : List Char} (ht : t = ' ' :: (w.text ++ s)) (h : WordsText ws s) :
    WordsText (w :: ws) t := by
  subst ht
  exact .cons [' '] w ws s (.blanks _ (by decide) (by decide)) h

theorem micro_ok : (Word.num two (some micro)).WF exprNone :=
  ⟨two_ok, by intro x hx; simp only [Option.mem_def, Option.some.injEq] at hx; subst hx; exact ⟨('U', 'u', 1 / 1000000), by simp [spiceLetter], Or.inr rfl, rfl⟩⟩
theorem femto_ok : (Word.num ten (some femto)).WF exprNone :=
  ⟨ten_ok, by intro x hx; simp only [Option.mem_def, Option.some.injEq] at hx; subst hx
              exact ⟨('F', 'f', 1 / 1000000000000000), by simp [spiceLetter], Or.inr rfl, rfl⟩⟩

theorem const_ok : ConstOK "GroupBlocks()".toList := ⟨by decide, by decide, by decide, by decide, fun h =>
  absurd (h.subset (by simp)) (by decide : '@' ∉ "GroupBlocks()".toList)⟩

/-- A line from its parts. -/
theorem ln {rest head : List Char} {args : List Word} {ps : List (List Char × Word)} {cs : List (List Char)} {l : List Char} (a b e : List Char)
    (hl : l = head ++ (a ++ (b ++ e))) (hok : ArgsOK exprNone args ps) (ha : WordsText args a) (hb : ParamsText ps b)
    (he : LineEnd rest cs e) : LineText exprNone rest head args ps cs l := by
  subst hl
  exact .mk a b e hok ha hb he

theorem lineX : LineText exprNone [] cardX.name cardX.args cardX.params [] "X1 p q r amp\n".toList := by
  refine ln " p q r amp".toList [] "\n".toList (by decide) ⟨?_, by simp [cardX], by decide⟩ ?_ .nil (.plain _ _ (.newline [] [] (by decide) (by decide)))
  · intro w hw
    simp only [cardX, List.mem_cons, List.not_mem_nil, or_false] at hw
    rcases hw with rfl | rfl | rfl | rfl <;> exact nm_ok (by decide) (by decide) (by decide)
  · exact wd (nm "p") " q r amp".toList (by decide) (wd (nm "q") " r amp".toList (by decide) (wd (nm "r") " amp".toList (by decide) (wd (nm "amp") [] (by decide) .nil)))

theorem lineM (rest : List Char) : LineText exprNone rest cardM.name cardM.args cardM.params [] "m1 out in gnd nmos ; input\n+ w = 2u\n".toList := by
  refine ln " out in gnd nmos".toList " ; input\n+ w = 2u".toList "\n".toList (by decide) ⟨?_, ?_, by decide⟩ ?_ ?_
    (.plain _ _ (.newline [] [] (by decide) (by decide)))
  · intro w hw
    simp only [cardM, List.mem_cons, List.not_mem_nil, or_false] at hw
    rcases hw with rfl | rfl | rfl | rfl <;> exact nm_ok (by decide) (by decide) (by decide)
  · intro p hp
    simp only [cardM, List.mem_singleton] at hp
    subst hp
    exact ⟨nm_ok (by decide) (by decide) (by decide), micro_ok⟩
  · exact wd (nm "out") " in gnd nmos".toList (by decide) (wd (nm "in") " gnd nmos".toList (by decide) (wd (nm "gnd") " nmos".toList (by decide)
      (wd (nm "nmos") [] (by decide) .nil)))
  · exact .cons " ; input\n+ ".toList "w".toList " ".toList " ".toList (.num two (some micro)) [] []
      (.note " ".toList ";".toList " input".toList " ".toList (by decide) (by decide) (Or.inl rfl) (by decide) (by decide)) (by decide) (by decide) .nil

theorem lineC (rest : List Char) : LineText exprNone rest cardC.name cardC.args cardC.params [] "C1 out gnd 10f\n".toList := by
  refine ln " out gnd 10f".toList [] "\n".toList (by decide) ⟨?_, by simp [cardC], by decide⟩ ?_ .nil (.plain _ _ (.newline [] [] (by decide) (by decide)))
  · intro w hw
    simp only [cardC, List.mem_cons, List.not_mem_nil, or_false] at hw
    rcases hw with rfl | rfl | rfl
    · exact nm_ok (by decide) (by decide) (by decide)
    · exact nm_ok (by decide) (by decide) (by decide)
    · exact femto_ok
  · exact wd (nm "out") " gnd 10f".toList (by decide) (wd (nm "gnd") " 10f".toList (by decide) (wd (.num ten (some femto)) [] (by decide) .nil))

theorem lineHead (rest : List Char) : LineText exprNone rest ".Subckt".toList (.name headA.name :: headA.args) headA.params ["GroupBlocks()".toList]
    ".Subckt amp in out gnd\n* @: GroupBlocks()\n ".toList := by
  refine ln " amp in out gnd".toList [] "\n* @: GroupBlocks()\n ".toList (by decide) ⟨?_, by simp [headA], by decide⟩ ?_ .nil
    (.plain _ _ (.constraint [] " ".toList " ".toList "GroupBlocks()".toList [] "\n ".toList (by decide) (by decide) (by decide) const_ok
      (.newline [] " ".toList (by decide) (by decide))))
  · intro w hw
    simp only [headA, List.mem_cons, List.not_mem_nil, or_false] at hw
    rcases hw with rfl | rfl | rfl | rfl <;> exact nm_ok (by decide) (by decide) (by decide)
  · exact wd (nm "amp") " in out gnd".toList (by decide) (wd (nm "in") " out gnd".toList (by decide) (wd (nm "out") " gnd".toList (by decide)
      (wd (nm "gnd") [] (by decide) .nil)))

theorem lineEnds (rest : List Char) : LineText exprNone rest ".ENDS".toList [nm "amp"] [] [] ".ENDS amp\n\n".toList := by
  refine ln " amp".toList [] "\n\n".toList (by decide) ⟨?_, by simp, by decide⟩ ?_ .nil (.plain _ _ (.newline "\n".toList [] (by decide) (by decide)))
  · intro w hw
    simp only [List.mem_cons, List.not_mem_nil, or_false] at hw
    subst hw
    exact nm_ok (by decide) (by decide) (by decide)
  · exact wd (nm "amp") [] (by decide) .nil

theorem netA : NetText exprNone itemsA (".Subckt amp in out gnd\n* @: GroupBlocks()\n ".toList ++
    (("m1 out in gnd nmos ; input\n+ w = 2u\n".toList ++ ("C1 out gnd 10f\n".toList ++ [])) ++ (".ENDS amp\n\n".toList ++ ("X1 p q r amp\n".toList ++ [])))) :=
  .sub ".Subckt".toList ".ENDS".toList headA [.inst cardM, .inst cardC] ["GroupBlocks()".toList] ([] ++ ([] ++ [])) [nm "amp"] [.card cardX] _ _ _ _
    (by decide) (by decide) (lineHead _)
    (.inst cardM _ [] _ _ _ (nm_ok (by decide) (by decide) (by decide)) (lineM _)
      (.inst cardC _ [] _ _ _ (nm_ok (by decide) (by decide) (by decide)) (lineC _) .nil))
    (lineEnds _) (.card cardX [] _ _ (nm_ok (by decide) (by decide) (by decide)) lineX .nil)

/-- The hypotheses of `C70_parse_partial` are met, and the text is read as the design. -/
example (showNum : ℚ → List Char) : parse ⟨exprNone, showNum, fun _ => true⟩ [nmos, cap] textA =
    some ⟨(designA showNum).lib, (designA showNum).top, [], [], none⟩ := by
  have h := C70_parse_partial (E := ⟨exprNone, showNum, fun _ => true⟩) exprNone_ok (lib := [nmos, cap]) (by decide) (meansA showNum)
    (by intro _ _ _ _ _ _ _ _ _; rfl) netA (t := "* an amplifier\n".toList)
    (.title " an amplifier".toList "\n".toList (by decide) (.newline [] [] (by decide) (by decide)))
  rw [show textA = "* an amplifier\n".toList ++ (".Subckt amp in out gnd\n* @: GroupBlocks()\n ".toList ++
    (("m1 out in gnd nmos ; input\n+ w = 2u\n".toList ++ ("C1 out gnd 10f\n".toList ++ [])) ++
      (".ENDS amp\n\n".toList ++ ("X1 p q r amp\n".toList ++ [])))) by decide +kernel, h]
  rfl

/-! ## Netlists that are not read as written -/

def E0 : Env := ⟨exprNone, fun _ => [], fun _ => true⟩

def tops (lib : List Entry) (s : String) : Option (List (List Char)) := (parse E0 lib s.toList).map fun st => st.top.map Inst.name

/-- **C70 is violated** by a blank at the end of a line: the blanks take the line break with them, and the instance after
`.ENDS amp ` is lost without a message.  Without the blank it is read. -/
theorem C70_violated_blank :
    tops [] ".SUBCKT amp a b\n.ENDS amp \nX1 p q amp\n" = some [] ∧
    tops [] ".SUBCKT amp a b\n.ENDS amp\nX1 p q amp\n" = some ["X1".toList] := by decide +kernel

/-- **C70 is violated** by a character no token begins with, such as a parenthesis: reading ends there without a message, whatever
follows. -/
theorem C70_violated_stop (E : Env) (hE : ExprOK E.expr) (lib : List Entry) (c : Char) (hc : c = '(' ∨ c = ')' ∨ c = '}') (rest : List Char) :
    parse E lib ('\n' :: c :: rest) = some ⟨lib, [], [], [], none⟩ := by
  have hf : Fresh (c :: rest) := by
    rcases hc with rfl | rfl | rfl <;> exact fresh_cons (by decide) (by decide) (by decide) (by decide) (by decide) (by decide)
  have h1 := step_newl (expr := E.expr) (b := true) (c := '\n') (a := []) (i := []) (s := c :: rest) (by decide) (by simp) (by simp) hf
    (Or.inr (by rcases hc with rfl | rfl | rfl <;> simp))
  have h2 : step E.expr false (c :: rest) = none := by
    rw [step_word E.expr hf (Or.inl rfl) (by rcases hc with rfl | rfl | rfl <;> decide)]
    unfold wordStep
    rw [expr_none hE (by rcases hc with rfl | rfl | rfl <;> decide) (by rcases hc with rfl | rfl | rfl <;> decide)
      (by rcases hc with rfl | rfl | rfl <;> decide)]
    have e1 : isDig c = false ∧ c ≠ '0' ∧ c ≠ '+' ∧ c ≠ '-' ∧ c ≠ '.' ∧ isId c = false ∧ isWs c = false := by
      rcases hc with rfl | rfl | rfl <;> decide
    obtain ⟨e1, e2, e3, e4, e5, e6, e7⟩ := e1
    simp [number, dropSign_of e3 e4, intPart, e1, e2, e5, e6, e7]
  simp only [List.nil_append] at h1
  unfold parse
  rw [lex_step hE h1, lex_stop h2]
  rfl

/-- **C70 is violated** by an instance of a subcircuit defined later: the netlist is rejected.  In the other order it is read. -/
theorem C70_violated_order :
    parse E0 [] "X1 p q amp\n.SUBCKT amp a b\n.ENDS amp\n".toList = none ∧
    tops [] ".SUBCKT amp a b\n.ENDS amp\nX1 p q amp\n" = some ["X1".toList] := by
  constructor
  · have : (parse E0 [] "X1 p q amp\n.SUBCKT amp a b\n.ENDS amp\n".toList).isNone = true := by decide +kernel
    exact Option.isNone_iff_eq_none.1 this
  · decide +kernel

/-- **C70 is violated** by subcircuits inside a subcircuit: the netlist is rejected. -/
theorem C70_violated_nested : parse E0 [] ".SUBCKT amp a b\n.SUBCKT sub a b\n.ENDS\n.ENDS\n".toList = none := by
  have : (parse E0 [] ".SUBCKT amp a b\n.SUBCKT sub a b\n.ENDS\n.ENDS\n".toList).isNone = true := by decide +kernel
  exact Option.isNone_iff_eq_none.1 this

def res : Entry := ⟨"RES".toList, ["PLUS".toList, "MINUS".toList], [("VALUE".toList, "0".toList)], "R".toList, false, [], []⟩
def poly : Entry := ⟨"POLY".toList, ["PLUS".toList, "MINUS".toList], [("VALUE".toList, "0".toList)], "R".toList, false, [], []⟩

/-- **C70 is violated** by a resistor with a model and no parameter: the model is taken for the value. -/
theorem C70_violated_model : (parse E0 [res, poly] "R1 a b poly\n".toList).map (fun st => st.top.map fun i => (i.model, i.params)) =
    some [("RES".toList, [("VALUE".toList, "POLY".toList)])] := by decide +kernel

/-- **C70 is violated** by two instances of one name: both are kept. -/
theorem C70_violated_twice : tops [poly] "R1 a b poly value=v\nR1 a c poly value=v\n" = some ["R1".toList, "R1".toList] := by
  decide +kernel

def one : Literal := ⟨none, [1], none, none⟩
def thousand : Literal := ⟨none, [1, 0, 0, 0], none, none⟩
def cardR : Card := ⟨"R1".toList, [.num one (some ('K', 1000)), .num thousand none, nm "poly"], [("value".toList, nm "v")]⟩

/-- **C70 is violated** by nets named as numbers: `1K` and `1000` become one net, however numbers are printed. -/
theorem C70_violated_net (showNum : ℚ → List Char) :
    (parse ⟨exprNone, showNum, fun _ => true⟩ [poly] "R1 1K 1000 poly value=v\n".toList).map (fun st => st.top.map Inst.pins) =
      some [[("PLUS".toList, showNum 1000), ("MINUS".toList, showNum 1000)]] := by
  have h1 : one.value * 1000 = 1000 := by
    simp [one, Literal.value, natVal, signVal, expVal]
  have h2 : thousand.value = 1000 := by
    simp [thousand, Literal.value, natVal, signVal, expVal]
  have hm : Means showNum [.card cardR] ⟨[poly], [], []⟩ ⟨[poly], [⟨"R1".toList, "POLY".toList,
      [("PLUS".toList, showNum 1000), ("MINUS".toList, showNum 1000)], [("VALUE".toList, "V".toList)]⟩], []⟩ := by
    refine .card _ _ _ _ _ ?_ (.nil _)
    refine .device poly [.num one (some ('K', 1000)), .num thousand none] "poly".toList (by decide) rfl (by decide) (Or.inl (by simp [cardR])) rfl
      ⟨by decide, rfl, ⟨_, rfl⟩, ?_, rfl, ?_, rfl⟩
    · intro p hp
      simp only [given, cardR, List.map_cons, List.map_nil, List.mem_singleton] at hp
      rw [hp]
      change "VALUE".toList ∈ _
      decide
    · simp only [List.map_cons, List.map_nil, Word.stored, Option.map_some, Option.map_none, Option.getD_some, Option.getD_none, mul_one, h1, h2]
      rfl
  have hl : LineText exprNone [] cardR.name cardR.args cardR.params [] "R1 1K 1000 poly value=v\n".toList := by
    refine ln " 1K 1000 poly".toList " value=v".toList "\n".toList (by decide) ⟨?_, ?_, by decide⟩ ?_ ?_
      (.plain _ _ (.newline [] [] (by decide) (by decide)))
    · intro w hw
      simp only [cardR, List.mem_cons, List.not_mem_nil, or_false] at hw
      rcases hw with rfl | rfl | rfl
      · refine ⟨⟨⟨by decide, by intro e he; simp [one] at he⟩, Or.inr ⟨1, [], rfl, by decide⟩, by intro d hd; simp [one] at hd⟩, ?_⟩
        intro x hx
        simp only [Option.mem_def, Option.some.injEq] at hx
        subst hx
        exact ⟨('K', 'k', 1000), by simp [spiceLetter], Or.inl rfl, rfl⟩
      · exact ⟨⟨⟨by decide, by intro e he; simp [thousand] at he⟩, Or.inr ⟨1, [0, 0, 0], rfl, by decide⟩, by intro d hd; simp [thousand] at hd⟩,
          by intro x hx; simp at hx⟩
      · exact nm_ok (by decide) (by decide) (by decide)
    · intro p hp
      simp only [cardR, List.mem_singleton] at hp
      subst hp
      exact ⟨nm_ok (by decide) (by decide) (by decide), nm_ok (by decide) (by decide) (by decide)⟩
    · exact wd (.num one (some ('K', 1000))) " 1000 poly".toList (by decide) (wd (.num thousand none) " poly".toList (by decide)
        (wd (nm "poly") [] (by decide) .nil))
    · exact .cons " ".toList "value".toList [] [] (nm "v") [] [] (.blanks _ (by decide) (by decide)) (by decide) (by decide) .nil
  have h := C70_parse_partial (E := ⟨exprNone, showNum, fun _ => true⟩) exprNone_ok (lib := [poly]) (by decide) hm
    (by intro _ _ _ _ _ _ _ _ _; rfl) (.card cardR [] _ [] (nm_ok (by decide) (by decide) (by decide)) hl .nil) .none
  rw [List.nil_append, List.append_nil] at h
  rw [h]
  rfl

end Verif.Spice

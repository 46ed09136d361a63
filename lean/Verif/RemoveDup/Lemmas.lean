import Verif.RemoveDup.Model
import Verif.RemoveDup.UnionFindProps

/-! # Lemmas on `connectPair` and on the scan of one centre line -/

namespace Verif.RemoveDup

/-! ## Specification vocabulary (used in the statements of C10, C11, C14) -/

/-- The point `(x, y)` lies in the closed rectangle `r`. -/
def Covers (r : Rect) (x y : Int) : Prop := r.x0 ≤ x ∧ x ≤ r.x1 ∧ r.y0 ≤ y ∧ y ≤ r.y1

/-- `r` lies inside `R`. -/
def Inside (r R : Rect) : Prop := R.x0 ≤ r.x0 ∧ r.x1 ≤ R.x1 ∧ R.y0 ≤ r.y0 ∧ r.y1 ≤ R.y1

/-- Two closed rectangles have a common point (they overlap or abut). -/
def Touch (a b : Rect) : Prop := ∃ x y, Covers a x y ∧ Covers b x y

/-- Two net names agree if one is missing or they are equal. -/
def Compat (x y : Option String) : Prop := x = none ∨ y = none ∨ x = y

/-! ## connectPair -/

/-- Everything of an object but its name is kept. -/
def SameBut (a b : Node) : Prop :=
  a.rect = b.rect ∧ a.netType = b.netType ∧ a.terminal = b.terminal ∧ a.isPorted = b.isPorted

theorem register_fields (s : St) (i : Nat) : (s.register i).uf = s.uf ∧ (s.register i).node = s.node ∧
    (s.register i).shorts = s.shorts := by
  unfold St.register; split <;> simp

theorem connectPair_spec {s : St} (hf : Forest s.uf) {a b : Nat} (ha : a < s.uf.n) (hb : b < s.uf.n) :
    ∃ s' ok, connectPair s a b = some (s', ok) ∧ Forest s'.uf ∧ s'.uf.n = s.uf.n ∧
      (∀ i, SameBut (s'.node i) (s.node i)) ∧
      (ok = true ↔ Compat (s.node a).netName (s.node b).netName ∧
        (s.node a).terminal = none ∧ (s.node b).terminal = none) ∧
      ((Compat (s.node a).netName (s.node b).netName ∧ s'.shorts = s.shorts ∧
          (∀ i, (s'.node i).netName = if i = a ∨ i = b then
            ((s.node a).netName <|> (s.node b).netName) else (s.node i).netName) ∧
          ∃ ra rb, RootOf s.uf a ra ∧ RootOf s.uf b rb ∧
            ∀ y r, RootOf s.uf y r → RootOf s'.uf y (if r = rb then ra else r)) ∨
        (¬ Compat (s.node a).netName (s.node b).netName ∧ s'.shorts = s.shorts ++ [(a, b)] ∧
          s'.node = s.node ∧ s'.uf = s.uf)) := by
  obtain ⟨u', ra, rb, hc, hra, hrb, hn, hf', hroot⟩ := connect_spec hf ha hb
  -- the tail of the function
  have tail : ∀ (s1 : St) (ok : Bool), ∃ s' ok',
      (if (s1.node a).terminal = none ∧ (s1.node b).terminal = none then some (s1, ok)
        else some ((s1.register a).register b, false)) = some (s', ok') ∧
      s'.uf = s1.uf ∧ s'.node = s1.node ∧ s'.shorts = s1.shorts ∧
      (ok' = true ↔ ok = true ∧ (s1.node a).terminal = none ∧ (s1.node b).terminal = none) := by
    intro s1 ok
    by_cases h : (s1.node a).terminal = none ∧ (s1.node b).terminal = none
    · exact ⟨s1, ok, by simp [h], rfl, rfl, rfl, by simp [h]⟩
    · refine ⟨(s1.register a).register b, false, by rw [if_neg h], ?_, ?_, ?_, by simp; exact fun _ h1 h2 => h ⟨h1, h2⟩⟩
      · rw [(register_fields _ _).1, (register_fields _ _).1]
      · rw [(register_fields _ _).2.1, (register_fields _ _).2.1]
      · rw [(register_fields _ _).2.2, (register_fields _ _).2.2]
  by_cases h1 : (s.node a).netName = none
  · obtain ⟨s', ok', he, e1, e2, e3, e4⟩ := tail
      ({ s.upd a (fun nd => { nd with netName := (s.node b).netName }) with uf := u' }) true
    have hsame : ∀ i, SameBut (s'.node i) (s.node i) := by
      intro i; rw [e2]; simp only [St.upd]; split <;> simp [SameBut]
    have hcomp : Compat (s.node a).netName (s.node b).netName := Or.inl h1
    refine ⟨s', ok', ?_, by rw [e1]; exact hf', by rw [e1]; exact hn, hsame, ?_, ?_⟩
    · simp only [connectPair, h1, if_true, hc]
      exact he
    · rw [e4]
      simp only [hcomp, true_and]
      rw [← e2, (hsame a).2.2.1, (hsame b).2.2.1]
    · left
      refine ⟨hcomp, by rw [e3]; rfl, ?_, ra, rb, hra, hrb, ?_⟩
      · intro i
        rw [e2]
        simp only [St.upd, h1]
        by_cases hi : i = a
        · subst hi; simp
        · by_cases hib : i = b
          · subst hib; simp [hi]
          · simp [hi, hib]
      · intro y r hy; rw [e1]; exact hroot y r hy
  · by_cases h2 : (s.node b).netName = none ∨ (s.node a).netName = (s.node b).netName
    · obtain ⟨s', ok', he, e1, e2, e3, e4⟩ := tail
        ({ s.upd b (fun nd => { nd with netName := (s.node a).netName }) with uf := u' }) true
      have hsame : ∀ i, SameBut (s'.node i) (s.node i) := by
        intro i; rw [e2]; simp only [St.upd]; split <;> simp [SameBut]
      have hcomp : Compat (s.node a).netName (s.node b).netName := Or.inr h2
      refine ⟨s', ok', ?_, by rw [e1]; exact hf', by rw [e1]; exact hn, hsame, ?_, ?_⟩
      · simp only [connectPair, if_neg h1, if_pos h2, hc]
        exact he
      · rw [e4]
        simp only [hcomp, true_and]
        rw [← e2, (hsame a).2.2.1, (hsame b).2.2.1]
      · left
        obtain ⟨na, hna⟩ := Option.ne_none_iff_exists'.mp h1
        refine ⟨hcomp, by rw [e3]; rfl, ?_, ra, rb, hra, hrb, ?_⟩
        · intro i
          rw [e2]
          simp only [St.upd, hna]
          by_cases hi : i = b
          · subst hi; simp
          · by_cases hia : i = a
            · subst hia; simp [hi, hna]
            · simp [hi, hia]
        · intro y r hy; rw [e1]; exact hroot y r hy
    · obtain ⟨s', ok', he, e1, e2, e3, e4⟩ := tail { s with shorts := s.shorts ++ [(a, b)] } false
      have hcomp : ¬ Compat (s.node a).netName (s.node b).netName := by
        rintro (h | h)
        · exact h1 h
        · exact h2 h
      refine ⟨s', ok', ?_, by rw [e1]; exact hf, by rw [e1], ?_, ?_, ?_⟩
      · simp only [connectPair, if_neg h1, if_neg h2]
        exact he
      · intro i; rw [e2]; simp [SameBut]
      · rw [e4]; simp [hcomp]
      · exact Or.inr ⟨hcomp, by rw [e3], by rw [e2], by rw [e1]⟩

/-! ## Geometry along and across a scan line -/

theorem covers_iff (r : Rect) (d : Dir) (x y : Int) : Covers r x y ↔
    (match d with
      | .h => r.lo d ≤ x ∧ x ≤ r.hi d ∧ r.c0 d ≤ y ∧ y ≤ r.c1 d
      | _ => r.lo d ≤ y ∧ y ≤ r.hi d ∧ r.c0 d ≤ x ∧ x ≤ r.c1 d) := by
  cases d <;> simp only [Covers, Rect.lo, Rect.hi, Rect.c0, Rect.c1] <;> constructor <;> intro h <;> omega

theorem inside_of (r R : Rect) (d : Dir) (h0 : r.c0 d = R.c0 d) (h1 : r.c1 d = R.c1 d)
    (hlo : R.lo d ≤ r.lo d) (hhi : r.hi d ≤ R.hi d) : Inside r R := by
  cases d <;> simp only [Inside, Rect.lo, Rect.hi, Rect.c0, Rect.c1] at * <;> omega

theorem setHi_fields (r : Rect) (d : Dir) (v : Int) :
    (r.setHi d v).lo d = r.lo d ∧ (r.setHi d v).hi d = v ∧ (r.setHi d v).c0 d = r.c0 d ∧
      (r.setHi d v).c1 d = r.c1 d := by
  cases d <;> simp [Rect.setHi, Rect.lo, Rect.hi, Rect.c0, Rect.c1]

end Verif.RemoveDup

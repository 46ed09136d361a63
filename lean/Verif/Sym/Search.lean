import Verif.Sym.Model

/-!
# The search ends, and what it relates has equal keys
-/

namespace Verif.Sym

open Verif (pySort mem_pySort)
open Verif.Cons (combinations2)

/-! ## Termination -/

/-- Decreases with every call of `compareNodes`. -/
def meas (N tr : List String) (a : String) : Nat := 2 * (N.filter fun x => !tr.contains x).length + if a ∈ tr then 1 else 0

theorem filter_lt {N : List String} {p q : String → Bool} (h : ∀ x ∈ N, q x = true → p x = true) {y : String} (hy : y ∈ N)
    (hp : p y = true) (hq : q y = false) : (N.filter q).length < (N.filter p).length := by
  induction N with
  | nil => simp at hy
  | cons a N ih =>
    have hle : (N.filter q).length ≤ (N.filter p).length := by
      clear ih hy
      induction N with
      | nil => simp
      | cons b N ih =>
        have := ih fun x hx => h x (by
          rcases List.mem_cons.1 hx with hx | hx <;> simp [hx])
        have hb := h b (by simp)
        cases hqb : q b <;> cases hpb : p b <;> simp_all
        omega
    rcases List.mem_cons.1 hy with rfl | hy
    · rw [List.filter_cons_of_neg (by simp [hq]), List.filter_cons_of_pos hp]
      simp only [List.length_cons]; omega
    · have := ih (fun x hx => h x (List.mem_cons_of_mem _ hx)) hy
      have ha := h a (by simp)
      cases hqa : q a <;> cases hpa : p a <;> simp_all
      omega

theorem filter_le {N : List String} {p q : String → Bool} (h : ∀ x ∈ N, q x = true → p x = true) :
    (N.filter q).length ≤ (N.filter p).length := by
  induction N with
  | nil => simp
  | cons b N ih =>
    have := ih fun x hx => h x (List.mem_cons_of_mem _ hx)
    have hb := h b (by simp)
    cases hqb : q b <;> cases hpb : p b <;> simp_all
    omega

theorem meas_lt {N tr tr' : List String} {a a' : String} (hsub : ∀ x ∈ tr, x ∈ tr') (ha : a ∈ tr') (ha' : a' ∉ tr)
    (hN : ∀ x ∈ tr', x ∈ tr ∨ x ∈ N) : meas N tr' a' < meas N tr a := by
  unfold meas
  have himp : ∀ x ∈ N, (!tr'.contains x) = true → (!tr.contains x) = true := by
    intro x _ hx
    simp only [Bool.not_eq_true', List.contains_eq_mem, decide_eq_false_iff_not] at hx ⊢
    exact fun h => hx (hsub x h)
  by_cases h : ∃ x ∈ tr', x ∉ tr
  · obtain ⟨x, hx, hxt⟩ := h
    have := filter_lt himp ((hN x hx).resolve_left hxt) (by simpa using hxt) (by simpa using hx)
    split <;> split <;> omega
  · have hall : ∀ x ∈ tr', x ∈ tr := fun x hx => by
      by_contra hc; exact h ⟨x, hx, hc⟩
    have h1 : a ∈ tr := hall a ha
    have h2 : a' ∉ tr' := fun hc => ha' (hall _ hc)
    have := filter_le himp
    rw [if_pos h1, if_neg h2]; omega

/-- A call that does not run out of fuel. -/
def Ends {α : Type} (r : Res α) : Prop := r ≠ .error .fuel

theorem ends_bind {α β : Type} {r : Res α} {g : α → Res β} (h : Ends r) (hg : ∀ x, r = .ok x → Ends (g x)) : Ends (r >>= g) := by
  cases r with
  | error e => intro hc; cases e with
    | fuel => exact h rfl
    | assertion => cases hc
  | ok x => exact hg x rfl

theorem mem_combinations2 {l : List String} {ab : String × String} (h : ab ∈ combinations2 l) : ab.1 ∈ l ∧ ab.2 ∈ l := by
  induction l with
  | nil => simp [combinations2] at h
  | cons x l ih =>
    simp only [combinations2, List.mem_append, List.mem_map] at h
    rcases h with ⟨y, hy, rfl⟩ | h
    · exact ⟨by simp, by simp [hy]⟩
    · have := ih h; exact ⟨by simp [this.1], by simp [this.2]⟩

section ends

variable {rec : Found → Pairs → String → String → Res (Found × Pairs)}

theorem tryPairs_ends {l : List (String × String)} (h : ∀ ab ∈ l, ∀ f p, Ends (rec f p ab.1 ab.2)) (f : Found) :
    Ends (tryPairs rec f l) := by
  induction l generalizing f with
  | nil => exact nofun
  | cons ab l ih =>
    refine ends_bind (h ab (by simp) _ _) fun r _ => ?_
    refine ends_bind (ih (fun x hx => h x (by simp [hx])) _) fun _ _ => nofun

theorem trySingles_ends {l : List String} (h : ∀ a ∈ l, ∀ f p, Ends (rec f p a a)) (f : Found) :
    Ends (trySingles rec f l) := by
  induction l generalizing f with
  | nil => exact nofun
  | cons a l ih =>
    rw [trySingles]
    split
    · exact ih (fun x hx => h x (by simp [hx])) _
    · exact ends_bind (h a (by simp) _ _) fun r _ => ih (fun x hx => h x (by simp [hx])) _

theorem follow_ends {l : List (String × String)} (h : ∀ ab ∈ l, ∀ f p, Ends (rec f p ab.1 ab.2)) (f : Found) (p : Pairs) :
    Ends (follow rec f p l) := by
  induction l generalizing f p with
  | nil => exact nofun
  | cons ab l ih => exact ends_bind (h ab (by simp) _ _) fun r _ => ih (fun x hx => h x (by simp [hx])) _ _

theorem diverge_ends {sp : List String} (h : ∀ a ∈ sp, ∀ b ∈ sp, ∀ f p, Ends (rec f p a b)) (f : Found) (p : Pairs) :
    Ends (diverge rec f p sp) := by
  refine ends_bind (tryPairs_ends (fun ab hab => ?_) f) fun r _ => ?_
  · exact h _ (mem_combinations2 hab).1 _ (mem_combinations2 hab).2
  · split
    · exact nofun
    · exact ends_bind (trySingles_ends (fun a ha => h a ha a ha) _) fun _ _ => nofun

end ends

theorem uniqueMatch_spec {V : View} {n1 n2 : List String} {m : List (String × String)} (h : uniqueMatch V n1 n2 = some m) :
    ∀ ab ∈ m, ab.1 ∈ n1 ∧ ab.2 ∈ n2 ∧ V.same ab.1 ab.2 = true := by
  induction n1 generalizing m with
  | nil =>
    simp only [uniqueMatch, List.mapM_nil, Option.pure_def, Option.some.injEq] at h
    subst h; simp
  | cons a n1 ih =>
    rw [uniqueMatch, List.mapM_cons] at h
    simp only [Option.bind_eq_bind, Option.bind_eq_some_iff] at h
    obtain ⟨x, hx, t, ht, hm⟩ := h
    simp only [Option.pure_def, Option.some.injEq] at hm
    subst hm
    intro ab hab
    rcases List.mem_cons.1 hab with rfl | hab
    · split at hx
      · rename_i b hb
        simp only [Option.some.injEq] at hx
        subst hx
        have : b ∈ n2.filter fun b => V.same a b := by rw [hb]; simp
        simp only [List.mem_filter] at this
        exact ⟨by simp, this.1, this.2⟩
      · simp at hx
    · have := ih ht ab hab
      exact ⟨by simp [this.1], this.2⟩

theorem mem_fresh {V : View} {tr : List String} {x y : String} : y ∈ fresh V tr x ↔ y ∈ V.nbrs x ∧ y ∉ tr := by
  simp [fresh, List.mem_filter]

theorem compareNodes_ends {V : View} {N : List String} (hN : ∀ x, ∀ y ∈ V.nbrs x, y ∈ N) :
    ∀ (fuel : Nat) (f : Found) (p : Pairs) (tr : List String) (a b : String), a ∈ N → b ∈ N → meas N tr a < fuel →
      Ends (compareNodes V fuel f p tr a b) := by
  intro fuel
  induction fuel with
  | zero => intro f p tr a b _ _ h; omega
  | succ fuel ih =>
    intro f p tr a b ha hb hm
    have step : ∀ tr' : List String, (∀ x ∈ tr, x ∈ tr') → a ∈ tr' → (∀ x ∈ tr', x ∈ tr ∨ x ∈ N) → ∀ x ∈ fresh V tr a,
        ∀ y ∈ N, ∀ f p, Ends (compareNodes V fuel f p tr' x y) := by
      intro tr' h1 h2 h3 x hx y hy f p
      have hx' := mem_fresh.1 hx
      exact ih f p tr' x y (hN _ _ hx'.1) hy (by have := meas_lt h1 h2 hx'.2 h3; omega)
    have one : ∀ x ∈ fresh V tr a, ∀ y ∈ N, ∀ f p, Ends (compareNodes V fuel f p (a :: tr) x y) :=
      step _ (fun x hx => by simp [hx]) (by simp) (fun x hx => by
        rcases List.mem_cons.1 hx with rfl | hx
        · exact .inr ha
        · exact .inl hx)
    have two : ∀ x ∈ fresh V tr a, ∀ y ∈ N, ∀ f p, Ends (compareNodes V fuel f p (a :: b :: tr) x y) :=
      step _ (fun x hx => by simp [hx]) (by simp) (fun x hx => by
        simp only [List.mem_cons] at hx
        rcases hx with rfl | rfl | hx
        · exact .inr ha
        · exact .inr hb
        · exact .inl hx)
    have inN : ∀ x ∈ fresh V tr a, x ∈ N := fun x hx => hN _ _ (mem_fresh.1 hx).1
    have inN2 : ∀ x ∈ fresh V tr b, x ∈ N := fun x hx => hN _ _ (mem_fresh.1 hx).1
    rw [compareNodes]
    dsimp only
    split
    · exact nofun
    · split
      · split <;> exact nofun
      · split
        · split
          · exact nofun
          · have hsub : ∀ x ∈ (fresh V tr a).filter (V.sd a), x ∈ fresh V tr a := fun x hx => (List.mem_filter.1 hx).1
            split
            · exact nofun
            · rename_i c hc
              have hc : c ∈ fresh V tr a := hsub c (by rw [hc]; simp)
              exact one c hc c (inN c hc) _ _
            · refine diverge_ends (fun x hx y hy f p => ?_) _ _
              have hx := hsub x (List.mem_filter.1 hx).1
              have hy := hsub y (List.mem_filter.1 hy).1
              exact one x hx y (inN y hy) f p
        · split
          · split
            · rename_i m hm
              have := uniqueMatch_spec hm
              exact follow_ends (fun ab hab => two _ (this ab hab).1 _ (inN2 _ (this ab hab).2.1)) _ _
            · split
              · split <;> exact nofun
              · exact nofun
          · exact nofun

/-! ## What is related -/

/-- All pairs in `p` satisfy `Q`. -/
def All (Q : String × String → Prop) (p : Pairs) : Prop := ∀ e ∈ p.pairs, Q e

def AllF (Q : String × String → Prop) (f : Found) : Prop := ∀ e ∈ f, All Q e.2

theorem mem_put {α β : Type} [DecidableEq α] {d : List (α × β)} {k : α} {v : β} {e : α × β} (h : e ∈ put d k v) :
    e ∈ d ∨ e = (k, v) := by
  unfold put at h
  split at h
  · obtain ⟨x, hx, he⟩ := List.mem_map.1 h
    split at he
    · exact .inr he.symm
    · exact .inl (he ▸ hx)
  · rcases List.mem_append.1 h with h | h
    · exact .inl h
    · exact .inr (by simpa using h)

theorem all_set {Q : String × String → Prop} {p : Pairs} {a b : String} (h : All Q p) (hq : Q (a, b)) : All Q (p.set a b) := by
  intro e he
  rcases mem_put he with he | rfl
  · exact h e he
  · exact hq

theorem all_update {Q : String × String → Prop} {p q : Pairs} (h : All Q p) (hq : All Q q) : All Q (p.update q) := by
  have : ∀ (l d : List (String × String)), (∀ e ∈ d, Q e) → (∀ e ∈ l, Q e) → ∀ e ∈ l.foldl (fun d e => put d e.1 e.2) d, Q e := by
    intro l
    induction l with
    | nil => intro d hd _; exact hd
    | cons x l ih =>
      intro d hd hl
      refine ih _ (fun e he => ?_) fun e he => hl e (by simp [he])
      rcases mem_put he with he | rfl
      · exact hd e he
      · exact hl _ (by simp)
  exact this _ _ h hq

theorem allF_put {Q : String × String → Prop} {f : Found} {k : String × String} {p : Pairs} (h : AllF Q f) (hp : All Q p) :
    AllF Q (put f k p) := by
  intro e he
  rcases mem_put he with he | rfl
  · exact h e he
  · exact hp

theorem bind_ok {α β : Type} {r : Res α} {g : α → Res β} {y : β} (h : (r >>= g) = .ok y) : ∃ x, r = .ok x ∧ g x = .ok y := by
  cases r with
  | error e => cases h
  | ok x => exact ⟨x, rfl, h⟩

section related

variable {rec : Found → Pairs → String → String → Res (Found × Pairs)} {Q : String × String → Prop}

/-- `rec` keeps what is required of the pairs. -/
def Keeps (Q : String × String → Prop) (rec : Found → Pairs → String → String → Res (Found × Pairs)) (a b : String) : Prop :=
  ∀ f p r, AllF Q f → All Q p → rec f p a b = .ok r → AllF Q r.1 ∧ All Q r.2

theorem all_empty : All Q .empty := fun e he => by simp [Pairs.empty] at he

theorem tryPairs_keeps {l : List (String × String)} (h : ∀ ab ∈ l, Keeps Q rec ab.1 ab.2) {f : Found} {r : Found × List Pairs}
    (hf : AllF Q f) (hr : tryPairs rec f l = .ok r) : AllF Q r.1 ∧ ∀ q ∈ r.2, All Q q := by
  induction l generalizing f r with
  | nil => cases hr; exact ⟨hf, by simp⟩
  | cons ab l ih =>
    obtain ⟨x, hx, hr⟩ := bind_ok hr
    obtain ⟨t, ht, hr⟩ := bind_ok hr
    cases hr
    obtain ⟨h1, h2⟩ := h ab (by simp) _ _ _ hf all_empty hx
    obtain ⟨h3, h4⟩ := ih (fun y hy => h y (by simp [hy])) h1 ht
    refine ⟨h3, fun q hq => ?_⟩
    dsimp only at hq
    split at hq
    · exact h4 q hq
    · rcases List.mem_cons.1 hq with rfl | hq
      · exact h2
      · exact h4 q hq

theorem trySingles_keeps {l : List String} (h : ∀ a ∈ l, Keeps Q rec a a) {f g : Found}
    (hf : AllF Q f) (hr : trySingles rec f l = .ok g) : AllF Q g := by
  induction l generalizing f with
  | nil => cases hr; exact hf
  | cons a l ih =>
    have ih := fun {f} => @ih (fun x hx => h x (by simp [hx])) f
    rw [trySingles] at hr
    split at hr
    · exact ih hf hr
    · obtain ⟨x, hx, hr⟩ := bind_ok hr
      obtain ⟨h1, h2⟩ := h a (by simp) _ _ _ hf all_empty hx
      refine ih ?_ hr
      split
      · exact h1
      · exact allF_put h1 h2

theorem follow_keeps {l : List (String × String)} (h : ∀ ab ∈ l, Keeps Q rec ab.1 ab.2) {f : Found} {p : Pairs}
    {r : Found × Pairs} (hf : AllF Q f) (hp : All Q p) (hr : follow rec f p l = .ok r) : AllF Q r.1 ∧ All Q r.2 := by
  induction l generalizing f p with
  | nil => cases hr; exact ⟨hf, hp⟩
  | cons ab l ih =>
    obtain ⟨x, hx, hr⟩ := bind_ok hr
    obtain ⟨h1, h2⟩ := h ab (by simp) _ _ _ hf hp hx
    exact ih (fun y hy => h y (by simp [hy])) h1 h2 hr

theorem diverge_keeps {sp : List String} (h : ∀ a ∈ sp, ∀ b ∈ sp, Keeps Q rec a b) {f : Found} {p : Pairs}
    {r : Found × Pairs} (hf : AllF Q f) (hp : All Q p) (hr : diverge rec f p sp = .ok r) : AllF Q r.1 ∧ All Q r.2 := by
  obtain ⟨x, hx, hr⟩ := bind_ok hr
  obtain ⟨h1, h2⟩ := tryPairs_keeps (fun ab hab => h _ (mem_combinations2 hab).1 _ (mem_combinations2 hab).2) hf hx
  split at hr
  · rename_i q hq
    cases hr
    exact ⟨h1, all_update hp (h2 q (by rw [hq]; simp))⟩
  · obtain ⟨g, hg, hr⟩ := bind_ok hr
    cases hr
    exact ⟨trySingles_keeps (fun a ha => h a ha a ha) h1 hg, hp⟩

end related

theorem compareNodes_keeps {V : View} {Ok : String → Prop} {S : List String} (hN : ∀ x, ∀ y ∈ V.nbrs x, y ∉ S → Ok y) :
    ∀ (fuel : Nat) (tr : List String) (a b : String), (∀ x ∈ S, x ∈ tr) → Ok a → Ok b →
      Keeps (fun e => (e.1 = e.2 ∨ V.same e.1 e.2 = true) ∧ Ok e.1 ∧ Ok e.2) (fun f p x y => compareNodes V fuel f p tr x y) a b := by
  intro fuel
  induction fuel with
  | zero => intro tr a b _ _ _ f p r _ _ h; cases h
  | succ fuel ih =>
    intro tr a b hS ha hb f p r hf hp hr
    have inN : ∀ z, ∀ x ∈ fresh V tr z, Ok x := fun z x hx =>
      hN _ _ (mem_fresh.1 hx).1 fun hc => (mem_fresh.1 hx).2 (hS x hc)
    have one := fun x y hx hy => ih (a :: tr) x y (fun z hz => by simp [hS z hz]) hx hy
    have two := fun x y hx hy => ih (a :: b :: tr) x y (fun z hz => by simp [hS z hz]) hx hy
    dsimp only at hr
    rw [compareNodes] at hr
    dsimp only at hr
    split at hr
    · cases hr
      refine ⟨hf, ?_⟩
      dsimp only
      split
      · rename_i h; exact all_set hp ⟨.inr h, ha, hb⟩
      · exact hp
    · split at hr
      · split at hr
        · cases hr
        · cases hr; exact ⟨hf, hp⟩
      · split at hr
        · rename_i hab
          subst hab
          split at hr
          · cases hr; exact ⟨hf, hp⟩
          · have hsub : ∀ x ∈ (fresh V tr a).filter (V.sd a), Ok x := fun x hx => inN _ x (List.mem_filter.1 hx).1
            have hp' := all_set hp (Q := fun e => (e.1 = e.2 ∨ V.same e.1 e.2 = true) ∧ Ok e.1 ∧ Ok e.2) (a := a) (b := a)
              ⟨.inl rfl, ha, ha⟩
            split at hr
            · cases hr; exact ⟨hf, hp'⟩
            · rename_i c hc
              have hc := hsub c (by rw [hc]; simp)
              exact one c c hc hc _ _ _ hf hp' hr
            · exact diverge_keeps (fun x hx y hy => one x y (hsub x (List.mem_filter.1 hx).1) (hsub y (List.mem_filter.1 hy).1)) hf hp' hr
        · split at hr
          · rename_i hk
            have hp' := all_set hp (Q := fun e => (e.1 = e.2 ∨ V.same e.1 e.2 = true) ∧ Ok e.1 ∧ Ok e.2) (a := a) (b := b)
              ⟨.inr hk, ha, hb⟩
            split at hr
            · rename_i m hm
              have := uniqueMatch_spec hm
              exact follow_keeps (fun ab hab => two _ _ (inN _ _ (this ab hab).1) (inN _ _ (this ab hab).2.1)) hf hp' hr
            · split at hr
              · split at hr
                · cases hr
                · cases hr; exact ⟨hf, hp'⟩
              · cases hr; exact ⟨hf, hp'⟩
          · cases hr; exact ⟨hf, hp⟩

end Verif.Sym

import Verif.Sym.Gen
import Verif.Sym.Alike
import Mathlib.Data.List.Nodup

/-!
# C71: generated symmetric blocks use every instance at most once
-/

namespace Verif.Sym

open Verif (pySort mem_pySort)
open Verif.Net (joinU)

/-! ## Specification -/

/-- The pairs of the constraints `SymmetricBlocks` among the generated ones. -/
def blocksIn (cons : List Con) : List (List (List String)) := cons.filterMap fun c => match c with
  | .blocks p => some p
  | .nets _ _ _ _ => none

/-- C71: `blocks` are the generated symmetric blocks, `w` what the user has constrained, `found` the groups found. -/
structure Once (E : Env) (w : List Entry) (found : List (List (String × String))) (blocks : List (List (List String))) : Prop where
  /-- no instance occurs twice in all the constraints together -/
  once : blocks.flatten.flatten.Nodup
  /-- all are instances of the subcircuit -/
  there : ∀ b ∈ blocks, ∀ pr ∈ b, ∀ x ∈ pr, ∃ e ∈ E.sub.elems, e.name = x
  /-- none is constrained by the user -/
  free : ∀ b ∈ blocks, ∀ pr ∈ b, ∀ x ∈ pr, ∀ t ∈ w, t ≠ .one x ∧ ∀ y, t ≠ .set x y ∧ t ≠ .set y x
  /-- the entries of a constraint are in one of the groups found: pairs of different instances with the same parameters, or single
  instances that are no plain devices -/
  group : ∀ b ∈ blocks, ∃ p ∈ found, ∀ pr ∈ b,
    (∃ x y, pr = [x, y] ∧ x ≠ y ∧ (x, y) ∈ p ∧ ∃ e ∈ E.sub.elems, ∃ d ∈ E.sub.elems, e.name = x ∧ d.name = y ∧
      ∀ kv, kv ∈ e.params ↔ kv ∈ d.params) ∨
    ∃ x, pr = [x] ∧ (x, x) ∈ p ∧ E.base x ≠ "NMOS" ∧ E.base x ≠ "PMOS" ∧ E.base x ≠ "RES" ∧ E.base x ≠ "CAP"
  /-- no constraint is empty or on a single instance -/
  big : ∀ b ∈ blocks, 2 ≤ b.length ∨ ∃ x y, b = [[x, y]]

/-! ## Filtering one group -/

theorem preFilter_free {E : Env} {w : List Entry} {k v : String} (h : preFilter E w k v = some false) :
    ∀ e ∈ w, k ∉ e.names ∧ v ∉ e.names := by
  unfold preFilter at h
  split at h
  · cases h
  · split at h
    · cases h
    · rename_i hw
      intro e he
      simp only [List.any_eq_true, not_exists, not_and, Bool.or_eq_true, List.contains_eq_mem, decide_eq_true_eq, not_or] at hw
      exact hw e he

/-- What holds while a group is filtered. -/
structure Filt (E : Env) (w : List Entry) (p : List (String × String)) (st : List (List String) × List String) : Prop where
  used : st.2 = st.1.flatten
  nodup : st.1.flatten.Nodup
  free : ∀ x ∈ st.1.flatten, ∀ e ∈ w, x ∉ e.names
  shape : ∀ pr ∈ st.1, (∃ x y, pr = [x, y] ∧ x ≠ y ∧ (x, y) ∈ p) ∨
    ∃ x, pr = [x] ∧ (x, x) ∈ p ∧ E.base x ≠ "NMOS" ∧ E.base x ≠ "PMOS" ∧ E.base x ≠ "RES" ∧ E.base x ≠ "CAP"

theorem blockStep_filt {E : Env} {w : List Entry} {p : List (String × String)} {st st' : List (List String) × List String}
    {kv : String × String} (hkv : kv ∈ p) (h : Filt E w p st) (hs : blockStep E w st kv = some st') : Filt E w p st' := by
  unfold blockStep at hs
  rw [Option.map_eq_some_iff] at hs
  obtain ⟨sk, hsk, hs⟩ := hs
  split at hs
  · exact hs ▸ h
  rename_i hsk'
  have hsk' : sk = false := by simpa using hsk'
  subst hsk'
  have hfree := preFilter_free hsk
  split at hs
  · exact hs ▸ h
  rename_i hu
  rw [h.used] at hu
  simp only [Bool.or_eq_true, List.contains_eq_mem, decide_eq_true_eq, not_or] at hu
  split at hs
  · exact hs ▸ h
  split at hs
  · exact hs ▸ h
  rename_i hb
  split at hs
  · rename_i hne
    subst hs
    refine ⟨by simp [h.used], ?_, ?_, ?_⟩
    · dsimp only
      rw [List.flatten_append]
      refine List.Nodup.append h.nodup (by simpa using hne) ?_
      intro x hx hx'
      simp at hx'
      rcases hx' with rfl | rfl
      · exact hu.1 hx
      · exact hu.2 hx
    · intro x hx e he
      simp only [List.flatten_append, List.mem_append] at hx
      rcases hx with hx | hx
      · exact h.free x hx e he
      · simp at hx
        rcases hx with rfl | rfl
        · exact (hfree e he).1
        · exact (hfree e he).2
    · intro pr hpr
      rcases List.mem_append.1 hpr with hpr | hpr
      · exact h.shape pr hpr
      · exact .inl ⟨kv.1, kv.2, by simpa using hpr, hne, hkv⟩
  · rename_i hne
    have heq : kv.1 = kv.2 := not_not.1 hne
    have hbase : ["NMOS", "PMOS", "RES", "CAP"].contains (E.base kv.1) = false := by
      have := fun h => hb ⟨heq, h⟩
      simpa using this
    subst hs
    refine ⟨by simp [h.used], ?_, ?_, ?_⟩
    · dsimp only
      rw [List.flatten_append]
      refine List.Nodup.append h.nodup (by simp) ?_
      intro x hx hx'
      simp at hx'
      subst hx'
      exact hu.1 hx
    · intro x hx e he
      simp only [List.flatten_append, List.mem_append] at hx
      rcases hx with hx | hx
      · exact h.free x hx e he
      · simp at hx
        subst hx
        exact (hfree e he).1
    · intro pr hpr
      rcases List.mem_append.1 hpr with hpr | hpr
      · exact h.shape pr hpr
      · refine .inr ⟨kv.1, by simpa using hpr, ?_, ?_⟩
        · have : kv = (kv.1, kv.1) := Prod.ext rfl heq.symm
          exact this ▸ hkv
        · simpa using hbase

theorem foldlM_inv {α β : Type} {g : β → α → Option β} {P : β → Prop} {l : List α}
    (h : ∀ b, ∀ a ∈ l, ∀ b', P b → g b a = some b' → P b') {b b' : β} (hb : P b) (hf : l.foldlM g b = some b') : P b' := by
  induction l generalizing b with
  | nil => simp at hf; exact hf ▸ hb
  | cons a l ih =>
    rw [List.foldlM_cons] at hf
    simp only [Option.bind_eq_bind, Option.bind_eq_some_iff] at hf
    obtain ⟨c, hc, hf⟩ := hf
    exact ih (fun b x hx b' => h b x (by simp [hx]) b') (h b a (by simp) c hb hc) hf

theorem mem_items {p : List (String × String)} {e : String × String} : e ∈ items p ↔ e ∈ p := mem_pySort

theorem filterBlocks_filt {E : Env} {w : List Entry} {p : List (String × String)} {pairsj : List (List String)}
    (h : filterBlocks E w (items p) = some pairsj) : Filt E w p (pairsj, pairsj.flatten) := by
  unfold filterBlocks at h
  rw [Option.map_eq_some_iff] at h
  obtain ⟨st, hst, rfl⟩ := h
  have := foldlM_inv (P := Filt E w p) (fun b a ha b' hb hs => blockStep_filt (mem_items.1 ha) hb hs)
    ⟨rfl, by simp, by simp, by simp⟩ hst
  rw [← this.used]
  exact this

/-! ## Adding the constraint -/

theorem blocksIn_append (a b : List Con) : blocksIn (a ++ b) = blocksIn a ++ blocksIn b := List.filterMap_append

theorem mem_blocksIn {cons : List Con} {b : List (List String)} : b ∈ blocksIn cons ↔ .blocks b ∈ cons := by
  simp only [blocksIn, List.mem_filterMap]
  constructor
  · rintro ⟨c, hc, h⟩
    cases c with
    | blocks p => simp only [Option.some.injEq] at h; exact h ▸ hc
    | nets => cases h
  · exact fun h => ⟨_, h, rfl⟩

theorem append_cases (E : Env) (cons : List Con) (c : Con) :
    append E cons c = cons ∨ (c ∉ cons ∧ append E cons c = cons ++ [c]) := by
  unfold append
  split
  · exact .inl rfl
  · rename_i h
    simp only [Bool.or_eq_true, List.contains_eq_mem, decide_eq_true_eq, not_or] at h
    exact .inr ⟨h.2, rfl⟩

/-- The entry of `written_symmblocks` for a pair. -/
def entryOf (pr : List String) : Entry := match pr with
  | [x] => .set x x
  | [x, y] => .set x y
  | _ => .one ""

theorem addBlocks_cases (E : Env) (st : St) (pairsj : List (List String)) :
    addBlocks E st pairsj = st ∨
    ((1 < pairsj.length ∨ pairsj.head?.map List.length = some 2) ∧ valid E.sub.elems pairsj = true ∧
      addBlocks E st pairsj = ⟨append E st.cons (.blocks pairsj), st.written ++ pairsj.map entryOf⟩) := by
  unfold addBlocks
  split
  · rename_i h
    split
    · rename_i hv
      rw [Bool.and_eq_true] at hv
      exact .inr ⟨h, hv.1, rfl⟩
    · exact .inl rfl
  · exact .inl rfl

theorem valid_there {l : List Inst} {pairs : List (List String)} (h : valid l pairs = true) :
    ∀ pr ∈ pairs, ∀ x ∈ pr, ∃ e ∈ l, e.name = x := by
  intro pr hpr x hx
  simp only [valid, List.all_eq_true, Bool.and_eq_true] at h
  have := (h pr hpr).1 x hx
  simp only [isInst, getEl, List.find?_isSome, decide_eq_true_eq] at this
  exact this

theorem valid_params {l : List Inst} {pairs : List (List String)} (h : valid l pairs = true) {x y : String} (hxy : [x, y] ∈ pairs) :
    ∃ e ∈ l, ∃ d ∈ l, e.name = x ∧ d.name = y ∧ ∀ kv, kv ∈ e.params ↔ kv ∈ d.params := by
  simp only [valid, List.all_eq_true, Bool.and_eq_true] at h
  have : (match getEl l x, getEl l y with
    | some e, some d => sameParams e.params d.params
    | _, _ => false) = true := (h _ hxy).2
  cases h1 : getEl l x with
  | none => rw [h1] at this; simp at this
  | some e =>
    cases h2 : getEl l y with
    | none => rw [h1, h2] at this; simp at this
    | some d =>
      rw [h1, h2] at this
      simp only [sameParams, Bool.and_eq_true, List.all_eq_true, List.contains_eq_mem, decide_eq_true_eq] at this
      exact ⟨e, (getEl_some h1).1, d, (getEl_some h2).1, (getEl_some h1).2, (getEl_some h2).2,
        fun kv => ⟨this.1 kv, this.2 kv⟩⟩

/-- What is required of one more group `b` of pairs. -/
structure Fits (E : Env) (w : List Entry) (found : List (List (String × String))) (b : List (List String)) : Prop where
  nodup : b.flatten.Nodup
  free : ∀ x ∈ b.flatten, ∀ e ∈ w, x ∉ e.names
  shape : b = [] ∨ ∃ p ∈ found, ∀ pr ∈ b, (∃ x y, pr = [x, y] ∧ x ≠ y ∧ (x, y) ∈ p) ∨
    ∃ x, pr = [x] ∧ (x, x) ∈ p ∧ E.base x ≠ "NMOS" ∧ E.base x ≠ "PMOS" ∧ E.base x ≠ "RES" ∧ E.base x ≠ "CAP"

theorem free_entry {x : String} {t : Entry} (h : x ∉ t.names) : t ≠ .one x ∧ ∀ y, t ≠ .set x y ∧ t ≠ .set y x := by
  refine ⟨?_, fun y => ⟨?_, ?_⟩⟩ <;> (rintro rfl; simp [Entry.names] at h)

theorem once_add {E : Env} {w : List Entry} {found : List (List (String × String))} {blocks : List (List (List String))}
    {b : List (List String)} (h : Once E w found blocks) (hb : Fits E w found b) (hv : valid E.sub.elems b = true)
    (hbig : 1 < b.length ∨ b.head?.map List.length = some 2) (hd : ∀ x ∈ b.flatten, x ∉ blocks.flatten.flatten) :
    Once E w found (blocks ++ [b]) := by
  have hmem : ∀ c, c ∈ blocks ++ [b] ↔ c ∈ blocks ∨ c = b := by simp
  have hflat : ∀ pr ∈ b, ∀ x ∈ pr, x ∈ b.flatten := fun pr hpr x hx => List.mem_flatten.2 ⟨pr, hpr, hx⟩
  refine ⟨?_, ?_, ?_, ?_, ?_⟩
  · rw [List.flatten_append, List.flatten_append]
    refine List.Nodup.append h.once (by simpa using hb.nodup) ?_
    intro x hx hx'
    exact hd x (by simpa using hx') hx
  · intro c hc
    rcases (hmem c).1 hc with hc | rfl
    · exact h.there c hc
    · exact valid_there hv
  · intro c hc
    rcases (hmem c).1 hc with hc | rfl
    · exact h.free c hc
    · exact fun pr hpr x hx t ht => free_entry (hb.free x (hflat pr hpr x hx) t ht)
  · intro c hc
    rcases (hmem c).1 hc with hc | rfl
    · exact h.group c hc
    · rcases hb.shape with rfl | ⟨p, hp, hs⟩
      · simp at hbig
      · refine ⟨p, hp, fun pr hpr => ?_⟩
        rcases hs pr hpr with ⟨x, y, rfl, hxy, hm⟩ | hx
        · exact .inl ⟨x, y, rfl, hxy, hm, valid_params hv hpr⟩
        · exact .inr hx
  · intro c hc
    rcases (hmem c).1 hc with hc | rfl
    · exact h.big c hc
    · rcases hbig with h1 | h1
      · exact .inl h1
      · match c, h1 with
        | pr :: [], h1 =>
          simp only [List.head?_cons, Option.map_some, Option.some.injEq] at h1
          match pr, h1 with
          | [x, y], _ => exact .inr ⟨x, y, rfl⟩
        | _ :: _ :: _, _ => exact .inl (by simp)

/-- What holds between the rounds. -/
structure Inv (E : Env) (w : List Entry) (found : List (List (String × String))) (st : St) : Prop where
  ok : Once E w found (blocksIn st.cons)
  old : ∀ t ∈ w, t ∈ st.written
  all : ∀ x ∈ (blocksIn st.cons).flatten.flatten, ∃ t ∈ st.written, x ∈ t.names

theorem mem_entryOf {b : List (List String)} (hs : ∀ pr ∈ b, (∃ x y, pr = [x, y]) ∨ ∃ x, pr = [x]) {x : String} (hx : x ∈ b.flatten) :
    ∃ t ∈ b.map entryOf, x ∈ t.names := by
  obtain ⟨pr, hpr, hx⟩ := List.mem_flatten.1 hx
  refine ⟨entryOf pr, List.mem_map_of_mem hpr, ?_⟩
  rcases hs pr hpr with ⟨a, b, rfl⟩ | ⟨a, rfl⟩
  · simpa [entryOf, Entry.names] using hx
  · simpa [entryOf, Entry.names] using hx

/-- Either the constraint is there afterwards, or its instances are still unused. -/
theorem addBlocks_inv {E : Env} {w : List Entry} {found : List (List (String × String))} {st : St} {b : List (List String)}
    (h : Inv E w found st) (hb : Fits E w found b)
    (hd : .blocks b ∈ st.cons ∨ ∀ x ∈ b.flatten, x ∉ (blocksIn st.cons).flatten.flatten) :
    Inv E w found (addBlocks E st b) ∧
      (.blocks b ∈ (addBlocks E st b).cons ∨ ∀ x ∈ b.flatten, x ∉ (blocksIn (addBlocks E st b).cons).flatten.flatten) := by
  rcases addBlocks_cases E st b with he | ⟨hbig, hv, he⟩
  · rw [he]; exact ⟨h, hd⟩
  · rw [he]
    have hs : ∀ pr ∈ b, (∃ x y, pr = [x, y]) ∨ ∃ x, pr = [x] := by
      rcases hb.shape with rfl | ⟨p, _, hs⟩
      · simp
      · intro pr hpr
        rcases hs pr hpr with ⟨x, y, rfl, _⟩ | ⟨x, rfl, _⟩
        · exact .inl ⟨x, y, rfl⟩
        · exact .inr ⟨x, rfl⟩
    have hold : ∀ t ∈ w, t ∈ st.written ++ b.map entryOf := fun t ht => List.mem_append_left _ (h.old t ht)
    have hall : ∀ x ∈ (blocksIn st.cons).flatten.flatten, ∃ t ∈ st.written ++ b.map entryOf, x ∈ t.names := by
      intro x hx
      obtain ⟨t, ht, hxt⟩ := h.all x hx
      exact ⟨t, List.mem_append_left _ ht, hxt⟩
    rcases append_cases E st.cons (.blocks b) with ha | ⟨hn, ha⟩
    · dsimp only
      rw [ha]
      exact ⟨⟨h.ok, hold, hall⟩, hd⟩
    · dsimp only
      rw [ha]
      refine ⟨⟨?_, hold, ?_⟩, .inl (by simp)⟩
      · dsimp only
        rw [blocksIn_append]
        exact once_add h.ok hb hv hbig (hd.resolve_left hn)
      · intro x hx
        dsimp only at hx
        rw [blocksIn_append, List.flatten_append, List.flatten_append, List.mem_append] at hx
        rcases hx with hx | hx
        · exact hall x hx
        · obtain ⟨t, ht, hxt⟩ := mem_entryOf hs (b := b) (by simpa [blocksIn] using hx)
          exact ⟨t, List.mem_append_right _ ht, hxt⟩

theorem firstLoop_inv {E : Env} {w : List Entry} {found : List (List (String × String))} {ps : List (List (String × String))}
    (hps : ∀ p ∈ ps, p ∈ found) {st : St} {last : List (List String)} {r : St × List (List String)} (h : Inv E w found st)
    (hl : Fits E w found last) (hd : .blocks last ∈ st.cons ∨ ∀ x ∈ last.flatten, x ∉ (blocksIn st.cons).flatten.flatten)
    (hr : firstLoop E st last ps = some r) :
    Inv E w found r.1 ∧ Fits E w found r.2 ∧
      (.blocks r.2 ∈ r.1.cons ∨ ∀ x ∈ r.2.flatten, x ∉ (blocksIn r.1.cons).flatten.flatten) := by
  induction ps generalizing st last with
  | nil => cases hr; exact ⟨h, hl, hd⟩
  | cons p ps ih =>
    rw [firstLoop, Option.bind_eq_some_iff] at hr
    obtain ⟨b, hb, hr⟩ := hr
    have hf := filterBlocks_filt hb
    have hfit : Fits E w found b := ⟨hf.nodup, fun x hx e he => hf.free x hx e (h.old e he), .inr ⟨p, hps p (by simp), hf.shape⟩⟩
    have hdis : ∀ x ∈ b.flatten, x ∉ (blocksIn st.cons).flatten.flatten := by
      intro x hx hc
      obtain ⟨t, ht, hxt⟩ := h.all x hc
      exact hf.free x hx t ht hxt
    obtain ⟨h1, h2⟩ := addBlocks_inv h hfit (.inr hdis)
    exact ih (fun q hq => hps q (by simp [hq])) h1 hfit h2 hr

theorem netStep_cons {E : Env} {skip : List Entry} {st st' : St} {kv : String × String} (h : netStep E skip st kv = some st') :
    blocksIn st'.cons = blocksIn st.cons ∧ (∀ t ∈ st.written, t ∈ st'.written) ∧ ∀ c ∈ st.cons, c ∈ st'.cons := by
  unfold netStep at h
  rw [Option.bind_eq_some_iff] at h
  obtain ⟨sk, _, h⟩ := h
  split at h
  · cases h; exact ⟨rfl, fun t ht => ht, fun c hc => hc⟩
  · rw [Option.map_eq_some_iff] at h
    obtain ⟨r, _, h⟩ := h
    split at h
    · cases h; exact ⟨rfl, fun t ht => ht, fun c hc => hc⟩
    · subst h
      refine ⟨?_, fun t ht => List.mem_append_left _ ht, ?_⟩
      · dsimp only
        rcases append_cases E st.cons _ with ha | ⟨_, ha⟩
        · rw [ha]
        · rw [ha, blocksIn_append]; simp [blocksIn]
      · intro c hc
        dsimp only
        rcases append_cases E st.cons _ with ha | ⟨_, ha⟩
        · rw [ha]; exact hc
        · rw [ha]; exact List.mem_append_left _ hc

theorem secondLoop_inv {E : Env} {w skip : List Entry} {found : List (List (String × String))} {b : List (List String)}
    (hb : Fits E w found b) {ps : List (List (String × String))} {st st' : St} (h : Inv E w found st)
    (hd : .blocks b ∈ st.cons ∨ ∀ x ∈ b.flatten, x ∉ (blocksIn st.cons).flatten.flatten)
    (hr : secondLoop E skip b st ps = some st') : Inv E w found st' := by
  induction ps generalizing st with
  | nil => cases hr; exact h
  | cons p ps ih =>
    rw [secondLoop, Option.bind_eq_some_iff] at hr
    obtain ⟨s1, h1, hr⟩ := hr
    have key := foldlM_inv (P := fun s => blocksIn s.cons = blocksIn st.cons ∧ (∀ t ∈ st.written, t ∈ s.written) ∧
        ∀ c ∈ st.cons, c ∈ s.cons)
      (fun s kv _ s' hs hk => by
        obtain ⟨a1, a2, a3⟩ := netStep_cons hk
        exact ⟨a1.trans hs.1, fun t ht => a2 t (hs.2.1 t ht), fun c hc => a3 c (hs.2.2 c hc)⟩)
      ⟨rfl, fun t ht => ht, fun c hc => hc⟩ h1
    obtain ⟨k1, k2, k3⟩ := key
    have hinv : Inv E w found s1 := ⟨k1 ▸ h.ok, fun t ht => k2 t (h.old t ht), fun x hx => by
      rw [k1] at hx
      obtain ⟨t, ht, hxt⟩ := h.all x hx
      exact ⟨t, k2 t ht, hxt⟩⟩
    obtain ⟨i1, i2⟩ := addBlocks_inv hinv hb (hd.imp (fun hc => k3 _ hc) fun hc => by rw [k1]; exact hc)
    exact ih i1 i2 hr

theorem generate_inv {E : Env} {w : List Entry} {found : List (List (String × String))} {st : St} (h : generate E w found = some st) :
    Inv E w found st := by
  unfold generate at h
  rw [Option.bind_eq_some_iff] at h
  obtain ⟨r, hr, h⟩ := h
  have hps : ∀ p ∈ allPairs (found.filter fun p => decide (1 < p.length)), p ∈ found := fun p hp =>
    (List.mem_filter.1 (mem_pySort.1 hp)).1
  have h0 : Inv E w found ⟨[], w⟩ := ⟨⟨by simp [blocksIn], by simp [blocksIn], by simp [blocksIn], by simp [blocksIn],
    by simp [blocksIn]⟩, fun t ht => ht, by simp [blocksIn]⟩
  obtain ⟨h1, h2, h3⟩ := firstLoop_inv hps h0 ⟨by simp, by simp, .inl rfl⟩ (.inr (by simp)) hr
  exact secondLoop_inv h2 h1 h3 h

/-- C71, for every subcircuit, every answer of the solver, everything the user has constrained and all groups found. -/
theorem C71_once (E : Env) (w : List Entry) (found : List (List (String × String))) (st : St) (h : generate E w found = some st) :
    Once E w found (blocksIn st.cons) := (generate_inv h).ok

/-- Together with the search (C73): when the groups are those found by the search on the subcircuit, the two instances of a pair are
alike. -/
theorem C71_alike (hash : String → Nat) (showSet : List String → String) (fuel : Nat) (E : Env) (w : List Entry) (f : Found) (st : St)
    (hc : Clear hash showSet E.lib E.sub)
    (hf : findSymmetry (view hash showSet E.lib E.sub) E.lib E.sub E.stop fuel = .ok f)
    (h : generate E w (f.map fun g => g.2.pairs) = some st) :
    ∀ b ∈ blocksIn st.cons, ∀ x y, [x, y] ∈ b → ∃ e ∈ E.sub.elems, ∃ d ∈ E.sub.elems, e.name = x ∧ d.name = y ∧ x ≠ y ∧ Alike e d := by
  intro b hb x y hxy
  have ho := C71_once E w _ st h
  obtain ⟨p, hp, hg⟩ := ho.group b hb
  obtain ⟨g, hgf, rfl⟩ := List.mem_map.1 hp
  rcases hg _ hxy with ⟨x', y', he, hne, hm, -⟩ | ⟨x', he, -⟩
  · simp only [List.cons.injEq, and_true] at he
    obtain ⟨rfl, rfl⟩ := he
    rcases (C73_alike_partial hash showSet E.lib E.sub E.stop fuel f hc hf g hgf _ hm).2.2 hne with ⟨e, h1, d, h2, h3, h4, h5⟩ | ⟨-, -, hn⟩
    · exact ⟨e, h1, d, h2, h3, h4, hne, h5⟩
    · obtain ⟨e, he, hex⟩ := ho.there b hb _ hxy x (by simp)
      exact absurd hex (hn e he).1
  · simp at he

/-! ## An example -/

def exE : Env where
  lib := []
  sub := exS
  base x := if x = "M1" ∨ x = "M2" then "NMOS" else if x = "R1" ∨ x = "R2" then "RES" else "CAP"
  stop := ["VDD", "VSS"]
  ok _ _ := true
  old _ := false
  ord := id

/-- The groups that the search finds in the differential stage, and a group with an instance that the user has constrained. -/
def exFound : List (List (String × String)) :=
  [[("INN", "INP"), ("M2", "M1"), ("OUTP", "OUTN"), ("T", "T")], [("M1", "M1"), ("T", "T"), ("M2", "M2"), ("OUTP", "OUTP")],
   [("T", "T"), ("M1", "M2"), ("INP", "INN"), ("OUTN", "OUTP")], [("R1", "R2"), ("OUTN", "OUTP")], [("C1", "C2"), ("OUTN", "OUTP")]]

/-- Two symmetric blocks are generated; the capacitors have different parameters and are left out; the third group repeats the
first. -/
example : (generate exE [.one "C1"] exFound).map (fun st => blocksIn st.cons) = some [[["M2", "M1"]], [["R1", "R2"]]] := by
  decide +kernel

/-- The search on the differential stage succeeds, and constraints are generated from what it finds. -/
example : ((findSymmetry (view0 joinU [] exS) [] exS ["VDD", "VSS"] 100).toOption.bind fun f =>
    generate exE [] (f.map fun g => g.2.pairs)).map (fun st => blocksIn st.cons) = some [[["M2", "M1"]]] := by decide +kernel

end Verif.Sym

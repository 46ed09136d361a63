import Verif.Schema.CheckpointProps

/-!
# C37: the constraint database and its solver
-/

namespace Verif.Schema

/-- What the solver knows: the asserted constraints; without a solver, one is made on demand from
the constraints in the database. -/
def DB.knows {κ : Type} (K : Kind κ) (db : DB κ) : List κ :=
  (db.solver.map asserted).getD (db.items.filter K.translates)

/-- A history of operations on the database of a new sub-circuit; operations which raise are
followed by further ones. -/
def DB.run {κ : Type} (K : Kind κ) (sat : List κ → Bool) (db : DB κ) (ops : List (DOp κ)) : DB κ :=
  ops.foldl (fun db op => (db.step K sat op).1) db

/-- The checkpoints which can be reverted to. -/
def DB.known {κ : Type} (db : DB κ) : List String := db.commits.map Prod.fst

theorem ready_of_some {κ : Type} (K : Kind κ) {db : DB κ} {fs : List (List κ)}
    (h : db.solver = some fs) : db.ready K = db := by
  simp [DB.ready, h]

theorem ready_of_none {κ : Type} (K : Kind κ) {db : DB κ} (h : db.solver = none) :
    db.ready K = verifyAll K db := by
  simp [DB.ready, h]

theorem ready_items {κ : Type} (K : Kind κ) (db : DB κ) : (db.ready K).items = db.items := by
  unfold DB.ready; split <;> rfl

theorem ready_commits {κ : Type} (K : Kind κ) (db : DB κ) : (db.ready K).commits = db.commits := by
  unfold DB.ready; split <;> rfl

theorem ready_cache {κ : Type} (K : Kind κ) (db : DB κ) : (db.ready K).cache = db.cache := by
  unfold DB.ready; split <;> rfl

/-- The state since a checkpoint `id` was made with items `B`, older checkpoints `older` and solver
frames `FB`, as long as the checkpoint is known. -/
def Since {κ : Type} (id : String) (B : List κ) (older : List (String × Nat)) (FB : List (List κ))
    (commits : List (String × Nat)) (items : List κ) (solver : Option (List (List κ))) : Prop :=
  ∃ pre F, id ∉ pre.map Prod.fst ∧ commits = pre ++ (id, B.length) :: older ∧
    (∀ p ∈ pre, B.length ≤ p.2) ∧ B <+: items ∧ solver = some (F ++ FB) ∧ F.length = pre.length + 1

theorem prefix_take {κ : Type} {B items : List κ} {n : Nat} (h : B <+: items) (hn : B.length ≤ n) :
    B <+: items.take n := by
  rw [List.prefix_take_iff]
  exact ⟨h, hn⟩

theorem dbRevertAux_known {κ : Type} (name : Option String) (cache : List String) :
    ∀ (commits : List (String × Nat)) (items : List κ) (solver : Option (List (List κ))) (db' : DB κ),
    dbRevertAux name cache commits items solver = some db' → db'.commits <:+ commits := by
  intro commits
  induction commits with
  | nil => intro items solver db' h; simp [dbRevertAux] at h
  | cons c rest ih =>
    intro items solver db' h
    obtain ⟨k, n⟩ := c
    simp only [dbRevertAux] at h
    split at h
    · split at h
      · simp only [Option.some.injEq] at h; subst h; exact List.suffix_cons _ _
      · cases h
    · split at h
      · split at h
        · exact (ih _ _ _ h).trans (List.suffix_cons _ _)
        · cases h
      · cases h

theorem dbRevertAux_since {κ : Type} {id : String} {B : List κ} {older : List (String × Nat)}
    {FB : List (List κ)} (hold : id ∉ older.map Prod.fst) (hFB : FB ≠ []) (name : Option String)
    (cache : List String) :
    ∀ (pre : List (String × Nat)) (F : List (List κ)) (items : List κ) (db' : DB κ),
    id ∉ pre.map Prod.fst → (∀ p ∈ pre, B.length ≤ p.2) → B <+: items → F.length = pre.length + 1 →
    dbRevertAux name cache (pre ++ (id, B.length) :: older) items (some (F ++ FB)) = some db' →
    id ∈ db'.known → Since id B older FB db'.commits db'.items db'.solver := by
  intro pre
  induction pre with
  | nil =>
    intro F items db' _ _ _ hF h hid
    exfalso
    obtain ⟨f, rfl⟩ : ∃ f, F = [f] := List.length_eq_one_iff.mp (by simpa using hF)
    obtain ⟨g, gs, rfl⟩ := List.exists_cons_of_ne_nil hFB
    simp only [List.nil_append, dbRevertAux, List.cons_append] at h
    have hsub : db'.commits <:+ older := by
      split at h
      · simp only [Option.some.injEq] at h; subst h; exact List.suffix_rfl
      · split at h
        · exact dbRevertAux_known _ _ _ _ _ _ h
        · cases h
    exact hold ((hsub.map Prod.fst).subset hid)
  | cons c pre ih =>
    intro F items db' hid0 hlen hB hF h hid
    obtain ⟨k, n⟩ := c
    match F, hF with
    | f :: F, hF =>
    obtain ⟨g, gs, hg⟩ : ∃ g gs, F ++ FB = g :: gs :=
      List.exists_cons_of_ne_nil (by simp [hFB])
    have hn : B.length ≤ n := hlen (k, n) List.mem_cons_self
    have hlen' : ∀ p ∈ pre, B.length ≤ p.2 := fun p hp => hlen p (List.mem_cons_of_mem _ hp)
    have hid' : id ∉ pre.map Prod.fst := fun hm => hid0 (by simp only [List.map_cons]; exact List.mem_cons_of_mem _ hm)
    have hF' : F.length = pre.length + 1 := by simpa using hF
    simp only [List.cons_append, dbRevertAux, hg] at h
    split at h
    · simp only [Option.some.injEq] at h
      subst h
      exact ⟨pre, F, hid', rfl, hlen', prefix_take hB hn, by simp [hg], hF'⟩
    · split at h
      · rw [← hg] at h
        exact ih F _ db' hid' hlen' (prefix_take hB hn) hF' h hid
      · cases h

theorem dbRevertAux_to {κ : Type} {id : String} {B : List κ} {older : List (String × Nat)}
    {FB : List (List κ)} (hFB : FB ≠ []) (cache : List String) :
    ∀ (pre : List (String × Nat)) (F : List (List κ)) (items : List κ),
    id ∉ pre.map Prod.fst → (∀ p ∈ pre, B.length ≤ p.2) → B <+: items → F.length = pre.length + 1 →
    dbRevertAux (some id) cache (pre ++ (id, B.length) :: older) items (some (F ++ FB)) =
      some ⟨B, older, cache, some FB⟩ := by
  intro pre
  obtain ⟨g0, gs0, rfl⟩ := List.exists_cons_of_ne_nil hFB
  induction pre with
  | nil =>
    intro F items _ _ hB hF
    obtain ⟨f, rfl⟩ : ∃ f, F = [f] := List.length_eq_one_iff.mp (by simpa using hF)
    simp [dbRevertAux, (List.prefix_iff_eq_take.mp hB).symm]
  | cons c pre ih =>
    intro F items hid0 hlen hB hF
    obtain ⟨k, n⟩ := c
    match F, hF with
    | f :: F, hF =>
    obtain ⟨g, gs, hg⟩ : ∃ g gs, F ++ g0 :: gs0 = g :: gs :=
      List.exists_cons_of_ne_nil (by simp)
    have hn : B.length ≤ n := hlen (k, n) List.mem_cons_self
    have hk : id ≠ k := fun e => hid0 (by simp [e])
    simp only [List.cons_append, dbRevertAux, hg]
    rw [if_neg (by simp [hk]), if_pos (by simp), ← hg]
    exact ih F _ (fun hm => hid0 (by simp only [List.map_cons]; exact List.mem_cons_of_mem _ hm))
      (fun p hp => hlen p (List.mem_cons_of_mem _ hp)) (prefix_take hB hn) (by simpa using hF)

theorem assertIn_append {κ : Type} (c : κ) (F FB : List (List κ)) (hF : F ≠ []) :
    assertIn c (F ++ FB) = assertIn c F ++ FB := by
  obtain ⟨f, F, rfl⟩ := List.exists_cons_of_ne_nil hF
  rfl

theorem assertIn_length {κ : Type} (c : κ) (F : List (List κ)) (hF : F ≠ []) :
    (assertIn c F).length = F.length := by
  obtain ⟨f, F, rfl⟩ := List.exists_cons_of_ne_nil hF
  rfl

theorem step_since {κ : Type} (K : Kind κ) (sat : List κ → Bool) {id : String} {B : List κ}
    {older : List (String × Nat)} {FB : List (List κ)} (hold : id ∉ older.map Prod.fst)
    (hFB : FB ≠ []) {db : DB κ} (h : Since id B older FB db.commits db.items db.solver) (op : DOp κ)
    (hk : id ∈ (db.step K sat op).1.known) :
    Since id B older FB (db.step K sat op).1.commits (db.step K sat op).1.items
      (db.step K sat op).1.solver := by
  obtain ⟨pre, F, h1, h2, h3, h4, h5, h6⟩ := h
  have hF : F ≠ [] := by rintro rfl; simp at h6
  cases op with
  | append c =>
    simp only [DB.step, DB.append, ready_of_some K h5, h5, Option.isNone_some, Bool.false_and, Bool.false_eq_true,
      if_false, Option.getD_some] at hk ⊢
    split
    · exact ⟨pre, F, h1, h2, h3, h4, h5, h6⟩
    · split
      · split
        · exact ⟨pre, assertIn c F, h1, h2, h3, h4.trans (List.prefix_append _ _),
            by simp [assertIn_append c F FB hF], by rw [assertIn_length c F hF, h6]⟩
        · exact ⟨pre, assertIn c F, h1, h2, h3, h4,
            by simp [assertIn_append c F FB hF], by rw [assertIn_length c F hF, h6]⟩
      · exact ⟨pre, F, h1, h2, h3, h4.trans (List.prefix_append _ _), by first | exact h5 | rfl, h6⟩
  | checkpoint i =>
    simp only [DB.step, DB.checkpoint, ready_of_some K h5, h5, Option.isNone_some, Bool.false_and, Bool.false_eq_true,
      if_false, Option.getD_some] at hk ⊢
    split
    · exact ⟨pre, F, h1, h2, h3, h4, h5, h6⟩
    · rename_i hni
      refine ⟨(i, db.items.length) :: pre, [] :: F, ?_, by simp [h2], ?_, h4, rfl, by simp [h6]⟩
      · simp only [List.map_cons, List.mem_cons, not_or]
        refine ⟨?_, h1⟩
        rintro rfl
        exact hni (by simp [h2])
      · intro p hp
        rcases List.mem_cons.mp hp with rfl | hp
        · exact h4.length_le
        · exact h3 p hp
  | revert name =>
    simp only [DB.step, DB.revert] at hk ⊢
    cases hr : dbRevertAux name db.cache db.commits db.items db.solver with
    | none => exact ⟨pre, F, h1, h2, h3, h4, h5, h6⟩
    | some db' =>
      rw [hr] at hk
      simp only at hk ⊢
      rw [h2, h5] at hr
      exact dbRevertAux_since hold hFB name db.cache pre F db.items db' h1 h3 h4 h6 hr hk

theorem run_since {κ : Type} (K : Kind κ) (sat : List κ → Bool) {id : String} {B : List κ}
    {older : List (String × Nat)} {FB : List (List κ)} (hold : id ∉ older.map Prod.fst)
    (hFB : FB ≠ []) (ops : List (DOp κ)) : ∀ {db : DB κ},
    Since id B older FB db.commits db.items db.solver →
    (∀ k ≤ ops.length, id ∈ (db.run K sat (ops.take k)).known) →
    Since id B older FB (db.run K sat ops).commits (db.run K sat ops).items
      (db.run K sat ops).solver := by
  induction ops with
  | nil => intro db h _; exact h
  | cons op ops ih =>
    intro db h hk
    have h' := step_since K sat hold hFB h op (by simpa [DB.run] using hk 1 (by simp))
    exact ih h' fun k hkl => by simpa [DB.run] using hk (k + 1) (by simpa using hkl)

/-- In every reachable state the solver is a stack with one more frame than there are
checkpoints. -/
def Framed {κ : Type} (db : DB κ) : Prop :=
  (db.solver = none ∧ db.commits = []) ∨ ∃ fs, db.solver = some fs ∧ fs.length = db.commits.length + 1

theorem dbRevertAux_framed {κ : Type} (name : Option String) (cache : List String) :
    ∀ (commits : List (String × Nat)) (items : List κ) (fs : List (List κ)) (db' : DB κ),
    fs.length = commits.length + 1 →
    dbRevertAux name cache commits items (some fs) = some db' → Framed db' := by
  intro commits
  induction commits with
  | nil => intro items fs db' _ h; simp [dbRevertAux] at h
  | cons c rest ih =>
    intro items fs db' hl h
    obtain ⟨k, n⟩ := c
    match fs, hl with
    | f :: g :: fs, hl =>
    simp only [dbRevertAux] at h
    split at h
    · simp only [Option.some.injEq] at h; subst h
      exact Or.inr ⟨_, rfl, by simpa using hl⟩
    · split at h
      · exact ih _ _ _ (by simpa using hl) h
      · cases h

theorem framed_step {κ : Type} (K : Kind κ) (sat : List κ → Bool) {db : DB κ} (h : Framed db)
    (op : DOp κ) : Framed (db.step K sat op).1 := by
  have hv : Framed (db.ready K) := by
    rcases h with ⟨h1, h2⟩ | ⟨fs, h1, h2⟩
    · rw [ready_of_none K h1]; exact Or.inr ⟨_, rfl, by simp [verifyAll, h2]⟩
    · rw [ready_of_some K h1]; exact Or.inr ⟨fs, h1, h2⟩
  have hcm := ready_commits K db
  have hfs : ((db.ready K).solver.getD []).length = db.commits.length + 1 := by
    rcases h with ⟨h1, h2⟩ | ⟨fs, h1, h2⟩
    · simp [ready_of_none K h1, verifyAll, h2]
    · simp [ready_of_some K h1, h1, h2]
  have hne : (db.ready K).solver.getD [] ≠ [] := by
    intro h0; rw [h0] at hfs; simp at hfs
  cases op with
  | append c =>
    simp only [DB.step, DB.append]
    split
    · exact h
    · split
      · split
        · exact hv
        · split
          · exact Or.inr ⟨_, rfl, by rw [assertIn_length _ _ hne, hfs, hcm]⟩
          · exact Or.inr ⟨_, rfl, by rw [assertIn_length _ _ hne, hfs, hcm]⟩
      · rcases h with ⟨h1, h2⟩ | ⟨fs, h1, h2⟩
        · exact Or.inl ⟨h1, h2⟩
        · exact Or.inr ⟨fs, h1, h2⟩
  | checkpoint i =>
    simp only [DB.step, DB.checkpoint]
    split
    · exact hv
    · split
      · exact h
      · exact Or.inr ⟨_, rfl, by simp only [List.length_cons, hfs, hcm]⟩
  | revert name =>
    simp only [DB.step, DB.revert]
    cases hr : dbRevertAux name db.cache db.commits db.items db.solver with
    | none => exact h
    | some db' =>
      simp only
      rcases h with ⟨h1, h2⟩ | ⟨fs, h1, h2⟩
      · rw [h2] at hr; simp [dbRevertAux] at hr
      · rw [h1] at hr; exact dbRevertAux_framed name _ _ _ fs db' h2 hr

theorem framed_run {κ : Type} (K : Kind κ) (sat : List κ → Bool) (ops : List (DOp κ)) {db : DB κ}
    (h : Framed db) : Framed (db.run K sat ops) := by
  induction ops generalizing db with
  | nil => exact h
  | cons op ops ih => exact ih (framed_step K sat h op)

/-- **C37, what reverting restores.**  Take a database after any history (including appends the
solver rejected), make a checkpoint, and go on with any operations during which this checkpoint stays
known.  Reverting to it then succeeds, and the constraints, the older checkpoints and what the solver
knows are what they were. -/
theorem C37_revert_restores_partial {κ : Type} (K : Kind κ) (sat : List κ → Bool)
    (before after : List (DOp κ)) (id : String)
    (hok : ((DB.empty.run K sat before).checkpoint K sat id).2 = true)
    (hknown : ∀ k ≤ after.length,
      id ∈ ((((DB.empty.run K sat before).checkpoint K sat id).1).run K sat (after.take k)).known) :
    let db0 := DB.empty.run K sat before
    let r := ((db0.checkpoint K sat id).1.run K sat after).revert (some id)
    r.2 = true ∧ r.1.items = db0.items ∧ r.1.commits = db0.commits ∧ r.1.knows K = db0.knows K := by
  have hfr : Framed (DB.empty.run K sat before) :=
    framed_run K sat before (Or.inl ⟨rfl, rfl⟩)
  generalize DB.empty.run K sat before = db0 at *
  obtain ⟨FB, hFB, hne, hkn⟩ : ∃ FB, (db0.ready K).solver =
      some FB ∧ FB ≠ [] ∧ asserted FB = db0.knows K := by
    rcases hfr with ⟨h1, h2⟩ | ⟨fs, h1, h2⟩
    · exact ⟨[db0.items.filter K.translates], by rw [ready_of_none K h1]; rfl, by simp,
        by simp [DB.knows, h1, asserted]⟩
    · exact ⟨fs, by rw [ready_of_some K h1, h1], by rintro rfl; simp at h2, by simp [DB.knows, h1]⟩
  have hit := ready_items K db0
  have hcm := ready_commits K db0
  have hfresh : id ∉ db0.commits.map Prod.fst := by
    intro hm
    simp only [DB.checkpoint] at hok
    split at hok
    · cases hok
    · rw [if_pos (by simpa using hm)] at hok
      cases hok
  have hstart : Since id db0.items db0.commits FB (db0.checkpoint K sat id).1.commits
      (db0.checkpoint K sat id).1.items (db0.checkpoint K sat id).1.solver := by
    simp only [DB.checkpoint] at hok ⊢
    split at hok
    · cases hok
    · split at hok
      · cases hok
      · rename_i hc1 hc2
        rw [if_neg hc1, if_neg hc2]
        exact ⟨[], [[]], by simp, by simp [hit, hcm], by simp, by simp [hit], by simp [hFB], rfl⟩
  obtain ⟨pre, F, h1, h2, h3, h4, h5, h6⟩ := run_since K sat hfresh hne after hstart hknown
  simp only [DB.revert, h2, h5, dbRevertAux_to hne _ pre F _ h1 h3 h4 h6]
  exact ⟨trivial, trivial, trivial, by rw [← hkn]; rfl⟩

/-! ### Appending -/

/-- Printed forms are cached only by appends. -/
theorem cache_run {κ : Type} (K : Kind κ) (sat : List κ → Bool) (ops : List (DOp κ)) :
    ∀ (db : DB κ) (r : String), r ∈ (db.run K sat ops).cache →
    r ∈ db.cache ∨ ∃ c, DOp.append c ∈ ops ∧ K.repr c = r := by
  have hrev : ∀ (name : Option String) (cache : List String) (commits : List (String × Nat))
      (items : List κ) (solver : Option (List (List κ))) (db' : DB κ),
      dbRevertAux name cache commits items solver = some db' → db'.cache = cache := by
    intro name cache commits
    induction commits with
    | nil => intro items solver db' h; simp [dbRevertAux] at h
    | cons c rest ih =>
      intro items solver db' h
      obtain ⟨k, n⟩ := c
      simp only [dbRevertAux] at h
      split at h
      · split at h
        · simp only [Option.some.injEq] at h; subst h; rfl
        · cases h
      · split at h
        · split at h
          · exact ih _ _ _ h
          · cases h
        · cases h
  induction ops with
  | nil => intro db r h; exact Or.inl h
  | cons op ops ih =>
    intro db r h
    rcases ih _ r h with h | ⟨c, hc, hr⟩
    · cases op with
      | append c =>
        have : r = K.repr c ∨ r ∈ db.cache := by
          simp only [DB.step, DB.append] at h
          split at h
          · exact Or.inr h
          · split at h
            · split at h
              · rw [ready_cache] at h; exact Or.inr h
              · split at h
                · simp only [ready_cache, List.mem_cons] at h
                  exact h
                · simp only [ready_cache] at h
                  exact Or.inr h
            · simpa using h
        rcases this with rfl | h
        · exact Or.inr ⟨c, List.mem_cons_self, rfl⟩
        · exact Or.inl h
      | checkpoint i =>
        simp only [DB.step, DB.checkpoint] at h
        left
        split at h
        · rw [ready_cache] at h; exact h
        · split at h
          · exact h
          · simp only [ready_cache] at h; exact h
      | revert name =>
        simp only [DB.step, DB.revert] at h
        left
        revert h
        cases hr : dbRevertAux name db.cache db.commits db.items db.solver with
        | none => exact id
        | some db' => simp only; rw [hrev _ _ _ _ _ _ hr]; exact id
    · exact Or.inr ⟨c, List.mem_cons_of_mem _ hc, hr⟩

theorem mem_asserted_assertIn {κ : Type} (c : κ) (fs : List (List κ)) :
    ∀ x, x ∈ asserted (assertIn c fs) ↔ x = c ∨ x ∈ asserted fs := by
  intro x
  cases fs with
  | nil => simp [assertIn, asserted]
  | cons f fs => simp only [assertIn, asserted, List.flatten_cons, List.mem_append, List.mem_singleton]; tauto

/-- **C37, the part which holds for appending.**  After any history in which no constraint printed
alike was ever appended, appending a constraint either raises, or puts it at the end of the database
and makes it known to the solver. -/
theorem C37_new_constraint_partial {κ : Type} (K : Kind κ) (sat : List κ → Bool)
    (ops : List (DOp κ)) (c : κ)
    (hnew : ∀ c', DOp.append c' ∈ ops → K.repr c' ≠ K.repr c)
    (hok : ((DB.empty.run K sat ops).append K sat c).2 = true) :
    ((DB.empty.run K sat ops).append K sat c).1.items = (DB.empty.run K sat ops).items ++ [c] ∧
    (K.translates c = true → c ∈ ((DB.empty.run K sat ops).append K sat c).1.knows K) := by
  have hc : K.repr c ∉ (DB.empty.run K sat ops).cache := by
    intro h
    rcases cache_run K sat ops DB.empty _ h with h | ⟨c', hc', hr⟩
    · cases h
    · exact hnew c' hc' hr
  generalize DB.empty.run K sat ops = db at *
  have hnc : ¬ (db.cache.contains (K.repr c) = true) := by simpa using hc
  simp only [DB.append] at hok ⊢
  rw [if_neg hnc] at hok ⊢
  have hit := ready_items K db
  by_cases ht : K.translates c = true
  · rw [if_pos ht] at hok ⊢
    split at hok
    · cases hok
    · rename_i h1
      rw [if_neg h1]
      split at hok
      · rename_i h2
        rw [if_pos h2]
        refine ⟨by simp only [hit], fun _ => ?_⟩
        simp only [DB.knows, Option.map_some, Option.getD_some]
        exact (mem_asserted_assertIn c _ c).mpr (Or.inl rfl)
      · cases hok
  · rw [if_neg ht]
    exact ⟨rfl, fun h => absurd h ht⟩

/-- Each list of asserted constraints covers the items present when its frame was the newest. -/
def Covered {κ : Type} (K : Kind κ) : List (String × Nat) → List κ → List (List κ) → Prop
  | [], items, fs => ∀ x ∈ items, K.translates x = true → x ∈ asserted fs
  | (_, n) :: rest, items, fs =>
    (∀ x ∈ items, K.translates x = true → x ∈ asserted fs) ∧ Covered K rest (items.take n) fs.tail

theorem Covered.head {κ : Type} {K : Kind κ} {commits : List (String × Nat)} {items : List κ}
    {fs : List (List κ)} (h : Covered K commits items fs) :
    ∀ x ∈ items, K.translates x = true → x ∈ asserted fs := by
  cases commits with
  | nil => exact h
  | cons c rest => exact h.1

/-- The lengths of the checkpoints are at most the present length. -/
def Short {κ : Type} (commits : List (String × Nat)) (items : List κ) : Prop :=
  ∀ c ∈ commits, c.2 ≤ items.length

def Good37 {κ : Type} (K : Kind κ) (db : DB κ) : Prop :=
  Framed db ∧ (∀ fs, db.solver = some fs → Covered K db.commits db.items fs) ∧
    (db.commits.map Prod.snd).Pairwise (· ≥ ·) ∧ Short db.commits db.items

theorem dbRevertAux_good {κ : Type} (K : Kind κ) (name : Option String) (cache : List String) :
    ∀ (commits : List (String × Nat)) (items : List κ) (fs : List (List κ)) (db' : DB κ),
    Covered K commits items fs → (commits.map Prod.snd).Pairwise (· ≥ ·) → Short commits items →
    dbRevertAux name cache commits items (some fs) = some db' →
    (∀ gs, db'.solver = some gs → Covered K db'.commits db'.items gs) ∧
    (db'.commits.map Prod.snd).Pairwise (· ≥ ·) ∧ Short db'.commits db'.items := by
  intro commits
  induction commits with
  | nil => intro items fs db' _ _ _ h; simp [dbRevertAux] at h
  | cons c rest ih =>
    intro items fs db' hcov hp hs h
    obtain ⟨k, n⟩ := c
    simp only [List.map_cons, List.pairwise_cons] at hp
    have hs' : Short rest (items.take n) := by
      intro c hc
      have h1 := hp.1 c.2 (List.mem_map_of_mem hc)
      have h2 := hs (k, n) List.mem_cons_self
      simp only at h2
      rw [List.length_take]; omega
    simp only [dbRevertAux] at h
    split at h
    · split at h
      · rename_i f g gs he
        simp only [Option.some.injEq] at h he; subst h
        refine ⟨?_, hp.2, hs'⟩
        intro gs' hg
        simp only [Option.some.injEq] at hg; subst hg
        have := hcov.2
        rw [he] at this
        exact this
      · cases h
    · split at h
      · split at h
        · rename_i f g gs he
          simp only [Option.some.injEq] at he
          have := hcov.2
          rw [he] at this
          exact ih _ _ _ this hp.2 hs' h
        · cases h
      · cases h

theorem Covered.push {κ : Type} {K : Kind κ} {commits : List (String × Nat)} {items : List κ}
    {fs : List (List κ)} (id : String) (h : Covered K commits items fs) :
    Covered K ((id, items.length) :: commits) items ([] :: fs) := by
  refine ⟨fun x hx ht => ?_, ?_⟩
  · simpa [asserted] using h.head x hx ht
  · simpa using h

theorem Covered.grow {κ : Type} {K : Kind κ} {commits : List (String × Nat)} {items : List κ}
    {fs fs' : List (List κ)} {c : κ} {new : List κ} (h : Covered K commits items fs)
    (hs : Short commits items) (htail : fs'.tail = fs.tail)
    (hsub : ∀ x ∈ asserted fs, x ∈ asserted fs') (hnew : new = [] ∨ new = [c])
    (hc : new = [c] → K.translates c = true → c ∈ asserted fs') :
    Covered K commits (items ++ new) fs' := by
  have hhead : ∀ x ∈ items ++ new, K.translates x = true → x ∈ asserted fs' := by
    intro x hx ht
    rcases List.mem_append.mp hx with hx | hx
    · exact hsub x (h.head x hx ht)
    · rcases hnew with rfl | rfl
      · cases hx
      · simp only [List.mem_singleton] at hx; subst hx; exact hc rfl ht
  cases commits with
  | nil => exact hhead
  | cons c rest =>
    refine ⟨hhead, ?_⟩
    rw [htail]
    have := hs c List.mem_cons_self
    rw [List.take_append_of_le_length this]
    exact h.2

theorem good37_step {κ : Type} (K : Kind κ) (sat : List κ → Bool) {db : DB κ} (h : Good37 K db)
    (op : DOp κ) : Good37 K (db.step K sat op).1 := by
  refine ⟨framed_step K sat h.1 op, ?_⟩
  obtain ⟨hf, hcov, hp, hs⟩ := h
  set db0 := db.ready K with hdb0
  have h0 : db0.items = db.items ∧ db0.commits = db.commits ∧ ∃ fs, db0.solver = some fs ∧
      Covered K db.commits db.items fs ∧ fs ≠ [] := by
    rcases hf with ⟨h1, h2⟩ | ⟨fs, h1, h2⟩
    · refine ⟨ready_items K db, ready_commits K db,
        [db.items.filter K.translates], by rw [hdb0, ready_of_none K h1]; rfl, ?_, by simp⟩
      rw [h2]
      intro x hx ht
      simpa [asserted] using ⟨hx, ht⟩
    · exact ⟨ready_items K db, ready_commits K db, fs, by rw [hdb0, ready_of_some K h1, h1], hcov fs h1,
        by rintro rfl; simp at h2⟩
  obtain ⟨hit, hcm, fs0, hfs0, hcov0, hne⟩ := h0
  have hgood0 : (∀ fs, db0.solver = some fs → Covered K db0.commits db0.items fs) ∧
      (db0.commits.map Prod.snd).Pairwise (· ≥ ·) ∧ Short db0.commits db0.items := by
    rw [hit, hcm]
    refine ⟨fun fs hfs => ?_, hp, hs⟩
    rw [hfs0] at hfs
    simp only [Option.some.injEq] at hfs
    exact hfs ▸ hcov0
  have hgrow : ∀ c, Short db.commits (db.items ++ [c]) := fun c x hx => by
    have := hs x hx
    simp only [List.length_append]; omega
  cases op with
  | append c =>
    have htail : (assertIn c fs0).tail = fs0.tail := by
      obtain ⟨f, F, rfl⟩ := List.exists_cons_of_ne_nil hne
      rfl
    simp only [DB.step, DB.append, ← hdb0, hfs0, Option.getD_some]
    split
    · exact ⟨hcov, hp, hs⟩
    · split
      · split
        · exact hgood0
        · split
          · simp only [hit, hcm]
            refine ⟨?_, hp, hgrow c⟩
            rintro fs hfs
            simp only [Option.some.injEq] at hfs
            subst hfs
            exact hcov0.grow (c := c) hs htail (fun x hx => (mem_asserted_assertIn c _ x).mpr (Or.inr hx))
              (Or.inr rfl) (fun _ _ => (mem_asserted_assertIn c _ c).mpr (Or.inl rfl))
          · simp only [hit, hcm]
            refine ⟨?_, hp, hs⟩
            rintro fs hfs
            simp only [Option.some.injEq] at hfs
            subst hfs
            have := hcov0.grow (c := c) (new := []) hs htail
              (fun x hx => (mem_asserted_assertIn c _ x).mpr (Or.inr hx)) (Or.inl rfl) (by simp)
            simpa using this
      · rename_i ht
        refine ⟨?_, hp, hgrow c⟩
        intro fs hfs
        exact (hcov fs hfs).grow (c := c) hs rfl (fun x hx => hx) (Or.inr rfl)
          (fun _ h => absurd h ht)
  | checkpoint i =>
    simp only [DB.step, DB.checkpoint, ← hdb0, hfs0, Option.getD_some]
    split
    · exact hgood0
    · split
      · exact ⟨hcov, hp, hs⟩
      · simp only [hit, hcm]
        refine ⟨?_, ?_, ?_⟩
        · rintro fs hfs
          simp only [Option.some.injEq] at hfs
          subst hfs
          exact hcov0.push i
        · simp only [List.map_cons, List.pairwise_cons]
          refine ⟨?_, hp⟩
          intro n hn
          obtain ⟨c, hc, rfl⟩ := List.mem_map.mp hn
          exact hs c hc
        · intro c hc
          rcases List.mem_cons.mp hc with rfl | hc
          · exact Nat.le_refl _
          · exact hs c hc
  | revert name =>
    simp only [DB.step, DB.revert]
    cases hr : dbRevertAux name db.cache db.commits db.items db.solver with
    | none => exact ⟨hcov, hp, hs⟩
    | some db' =>
      simp only
      rcases hf with ⟨h1, h2⟩ | ⟨fs, h1, h2⟩
      · rw [h2] at hr; simp [dbRevertAux] at hr
      · rw [h1] at hr; exact dbRevertAux_good K name _ _ _ fs db' (hcov fs h1) hp hs hr

theorem good37_run {κ : Type} (K : Kind κ) (sat : List κ → Bool) (ops : List (DOp κ)) {db : DB κ}
    (h : Good37 K db) : Good37 K (db.run K sat ops) := by
  induction ops generalizing db with
  | nil => exact h
  | cons op ops ih => exact ih (good37_step K sat h op)

/-- **C37, known to the solver.**  After any history of appends, checkpoints and reverts, every
constraint in the database which has formulas is known to the solver. -/
theorem C37_known_partial {κ : Type} (K : Kind κ) (sat : List κ → Bool) (ops : List (DOp κ)) :
    ∀ c ∈ (DB.empty.run K sat ops).items, K.translates c = true →
      c ∈ (DB.empty.run K sat ops).knows K := by
  have h := good37_run K sat ops (db := DB.empty)
    ⟨Or.inl ⟨rfl, rfl⟩, (by intro fs h; cases h), (by simp [DB.empty]), (by intro c hc; cases hc)⟩
  intro c hc ht
  unfold DB.knows
  cases hs : (DB.empty.run K sat ops).solver with
  | none => simpa using ⟨hc, ht⟩
  | some fs => simpa using (h.2.1 fs hs).head c hc ht

/-- Constraints named by strings, all with formulas; the solver finds a solution unless "bad" is
asserted. -/
def strKind : Kind String := ⟨id, fun _ => true⟩
def notBad (cs : List String) : Bool := !cs.contains "bad"

/-- The hypotheses of the theorems hold in a history with a rejected append and a nested
checkpoint. -/
example : ((DB.empty.run strKind notBad [.append "a"]).checkpoint strKind notBad "X").2 = true ∧
    (∀ k ≤ 4, "X" ∈ ((((DB.empty.run strKind notBad [.append "a"]).checkpoint strKind notBad "X").1).run
      strKind notBad ([DOp.append "b", .checkpoint "Y", .append "bad", .revert none].take k)).known) := by
  decide

example : ((DB.empty.run strKind notBad
      [.checkpoint "X", .append "a", .revert none]).append strKind notBad "b").2 = true := by decide

/-- **C37 is violated.**  The set of printed constraints is not rolled back: append a constraint
after a checkpoint, revert, append it again: the second append returns normally, but the constraint
is neither in the database nor known to the solver. -/
theorem C37_violated_append_again :
    let db := DB.empty.run strKind notBad [.checkpoint "X", .append "a", .revert (some "X"), .append "a"]
    db.items = [] ∧ db.knows strKind = [] ∧
      (∀ op ∈ [0, 1, 2, 3], ((DB.empty.run strKind notBad
        ([DOp.checkpoint "X", .append "a", .revert (some "X"), .append "a"].take op)).step strKind notBad
        (([DOp.checkpoint "X", .append "a", .revert (some "X"), .append "a"])[op]?.getD (.append "z"))).2
          = true) := by
  decide

/-- **C37 is violated by `remove`.**  A removed constraint stays asserted in the solver and can not be
added again. -/
theorem C37_violated_remove :
    let db := ((DB.empty.run strKind notBad [.append "a"]).remove "a").1
    db.items = [] ∧ "a" ∈ db.knows strKind ∧ (db.append strKind notBad "a").1.items = [] := by
  decide

/-- **A rejected constraint stays asserted**: without a checkpoint every further constraint is then
rejected, although the database does not contain the culprit. -/
theorem C37_violated_rejected :
    let db := DB.empty.run strKind notBad [.append "a", .append "bad"]
    db.items = ["a"] ∧ "bad" ∈ db.knows strKind ∧ ∀ c, c ≠ "a" → (db.append strKind notBad c).2 = false := by
  refine ⟨by decide, by decide, ?_⟩
  intro c hc
  have e : DB.empty.run strKind notBad [.append "a", .append "bad"] =
      ⟨["a"], [], ["a"], some [["a", "bad"]]⟩ := by rfl
  rw [e]
  simp [DB.append, DB.ready, strKind, hc, assertIn, asserted, notBad]

end Verif.Schema

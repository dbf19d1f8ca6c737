import Verif.Duchain.ProjectHistory
/-
Properties C96 and C97, part 3: the declarations that stand for included files, and what is wrong
with the check for changes.
-/
namespace KPhp.Project

set_option linter.unusedSectionVars false

variable {Path : Type} [DecidableEq Path]

/-- A declaration stands for the file. -/
def Marked (s : State Path) (g : Path) : Prop := ∃ c, s.chain g = some c ∧ c.marks > 0

theorem pass2_marked (u : CharClass) (w : World Path) (s : State Path) (f g : Path) (t : QString) :
    Marked (pass2 u w s f t) g ↔ Marked s g ∨ (target u w s.known t f = some g ∧ s.known g = true) := by
  unfold pass2
  cases ht : target u w s.known t f with
  | none => simp
  | some g0 =>
    dsimp only
    cases hc : s.chain g0 with
    | none =>
      dsimp only
      constructor
      · exact Or.inl
      · rintro (h | ⟨h, h'⟩)
        · exact h
        · cases h; simp [State.known, hc] at h'
    | some cg =>
      dsimp only
      split
      · next hm =>
        have : Marked s g0 := ⟨cg, hc, hm⟩
        split
        all_goals
          constructor
          · exact fun h => Or.inl h
          · rintro (h | ⟨h, _⟩)
            · exact h
            · cases h; exact this
      · by_cases hg : g = g0
        · subst hg
          simp [Marked, State.known, hc]
        · have : ¬ g0 = g := fun h => hg h.symm
          simp [Marked, put_ne _ _ hg, this]

theorem pass2_knownEq (u : CharClass) (w : World Path) (s : State Path) (f : Path) (t : QString) :
    (pass2 u w s f t).known = s.known := by
  funext q; rw [known_eq, pass2_core, ← known_eq]

theorem pass2_seen (u : CharClass) (w : World Path) (s : State Path) (f : Path) (t : QString) (l : Local)
    (hl : s.job f = some l) (hok : l.recompiling = true ∨ ¬ Marked s f ∨ l.seen = true) :
    ∃ l', (pass2 u w s f t).job f = some l' ∧ l'.recompiling = l.recompiling ∧
      (l'.seen = true ↔ l.seen = true ∨ (target u w s.known t f = some f ∧ s.known f = true)) ∧
      (l'.recompiling = true ∨ ¬ Marked (pass2 u w s f t) f ∨ l'.seen = true) := by
  have key : ∃ l', (pass2 u w s f t).job f = some l' ∧ l'.recompiling = l.recompiling ∧
      (l'.seen = true ↔ l.seen = true ∨ (target u w s.known t f = some f ∧ s.known f = true)) := by
    unfold pass2
    cases ht : target u w s.known t f with
    | none => exact ⟨l, hl, rfl, by simp⟩
    | some g0 =>
      dsimp only
      cases hc : s.chain g0 with
      | none =>
        refine ⟨l, hl, rfl, ?_⟩
        constructor
        · exact Or.inl
        · rintro (h | ⟨h, h'⟩)
          · exact h
          · cases h; simp [State.known, hc] at h'
      | some cg =>
        dsimp only
        split
        · next hm =>
          rw [hl]
          refine ⟨_, put_same _ _ _, rfl, ?_⟩
          dsimp only
          by_cases hg : g0 = f
          · subst hg
            have hk : s.known g0 = true := by simp [State.known, hc]
            rcases hok with h | h | h
            · simp [h, hk]
            · exact absurd ⟨cg, hc, hm⟩ h
            · simp [h, hk]
          · simp [hg]
        · rw [hl]
          refine ⟨_, put_same _ _ _, rfl, ?_⟩
          dsimp only
          by_cases hg : g0 = f
          · subst hg
            have hk : s.known g0 = true := by simp [State.known, hc]
            simp [hk]
          · simp [hg]
  obtain ⟨l', h1, h2, h3⟩ := key
  refine ⟨l', h1, h2, h3, ?_⟩
  rcases hok with h | h | h
  · exact Or.inl (h2.trans h)
  · by_cases hm : Marked (pass2 u w s f t) f
    · rcases (pass2_marked ..).1 hm with h' | h'
      · exact absurd h' h
      · exact Or.inr (Or.inr (h3.2 (Or.inr h')))
    · exact Or.inr (Or.inl hm)
  · exact Or.inr (Or.inr (h3.2 (Or.inl h)))

theorem pass2_all (u : CharClass) (w : World Path) (f : Path) (ts : List QString) (s : State Path) (l : Local)
    (hl : s.job f = some l) (hok : l.recompiling = true ∨ ¬ Marked s f ∨ l.seen = true) :
    (∀ g, Marked (ts.foldl (fun s t => pass2 u w s f t) s) g ↔ Marked s g ∨ (s.known g = true ∧ ∃ t ∈ ts, target u w s.known t f = some g)) ∧
    ∃ l', (ts.foldl (fun s t => pass2 u w s f t) s).job f = some l' ∧
      (l'.seen = true ↔ l.seen = true ∨ (s.known f = true ∧ ∃ t ∈ ts, target u w s.known t f = some f)) := by
  induction ts generalizing s l with
  | nil => exact ⟨by simp, l, hl, by simp⟩
  | cons t ts ih =>
    simp only [List.foldl_cons]
    obtain ⟨l1, h1, h2, h3, h4⟩ := pass2_seen u w s f t l hl hok
    obtain ⟨h5, l2, h6, h7⟩ := ih (pass2 u w s f t) l1 h1 h4
    rw [pass2_knownEq] at h5 h7
    constructor
    · intro g
      rw [h5, pass2_marked]
      simp only [List.mem_cons]
      constructor
      · rintro ((h | ⟨h, h'⟩) | ⟨h, t', hm, h'⟩)
        · exact Or.inl h
        · exact Or.inr ⟨h', t, Or.inl rfl, h⟩
        · exact Or.inr ⟨h, t', Or.inr hm, h'⟩
      · rintro (h | ⟨h, t', rfl | hm, h'⟩)
        · exact Or.inl (Or.inl h)
        · exact Or.inl (Or.inr ⟨h', h⟩)
        · exact Or.inr ⟨h, t', hm, h'⟩
    · refine ⟨l2, h6, ?_⟩
      rw [h7, h3]
      simp only [List.mem_cons]
      constructor
      · rintro ((h | ⟨h, h'⟩) | ⟨h, t', hm, h'⟩)
        · exact Or.inl h
        · exact Or.inr ⟨h', t, Or.inl rfl, h⟩
        · exact Or.inr ⟨h, t', Or.inr hm, h'⟩
      · rintro (h | ⟨h, t', rfl | hm, h'⟩)
        · exact Or.inl (Or.inl h)
        · exact Or.inl (Or.inr ⟨h', h⟩)
        · exact Or.inr ⟨h, t', hm, h'⟩

/-- What one job does to the declarations that stand for files. -/
theorem marked_job (u : CharClass) (internal : Path) (h : List (Job Path)) (j : Job Path) (g : Path) :
    Marked (after u internal (j :: h)) g ↔ Includes u h j g ∨ (¬ j.Analyses g ∧ Marked (after u internal h) g) := by
  cases ht : j.text with
  | none =>
    rw [after_failure u internal h j ht]
    have h1 : ¬ Includes u h j g := by rintro ⟨ts, _, h', _⟩; rw [ht] at h'; cases h'
    have h2 : ¬ j.Analyses g := by rintro ⟨_, ts, h'⟩; rw [ht] at h'; cases h'
    have : Marked (failed j.w (after u internal h) j.file) g ↔ Marked (after u internal h) g := by
      unfold failed
      split
      · next c hc =>
        by_cases hg : g = j.file
        · subst hg; simp [Marked, hc]
        · simp [Marked, put_ne _ _ hg]
      · next hc =>
        by_cases hg : g = j.file
        · subst hg; simp [Marked, hc]
        · simp [Marked, put_ne _ _ hg]
    rw [this]; simp [h1, h2]
  | some ts =>
    rw [after_success u internal h j ts ht]
    obtain ⟨imp, h1, h2, h3, h4⟩ := start_chain internal j.w (after u internal h) j.file
    have hs0 : ∀ g, Marked (start internal j.w (after u internal h) j.file) g ↔ Marked (after u internal h) g := by
      intro g
      by_cases hg : g = j.file
      · subst hg
        unfold Marked; rw [h1]
        cases (after u internal h).chain j.file <;> simp
      · simp only [Marked, h3 g hg]
    have hc : ∃ c, (start internal j.w (after u internal h) j.file).chain j.file = some c := ⟨_, h1⟩
    obtain ⟨c, hc⟩ := hc
    obtain ⟨imp', al, h5, _⟩ := pass1_all u j.w j.file ts _ c hc
    generalize hs1 : ts.foldl (fun s t => pass1 u j.w s j.file t) (start internal j.w (after u internal h) j.file) = s1 at *
    have hm1 : ∀ g, Marked s1 g ↔ Marked (after u internal h) g := by
      intro g
      rw [← hs0, h5]
      by_cases hg : g = j.file
      · subst hg; simp [Marked, hc]
      · simp only [Marked, put_ne _ _ hg]
    have hk1 : s1.known = (start internal j.w (after u internal h) j.file).known := by
      funext q
      rw [h5]
      by_cases hq : q = j.file
      · subst hq; simp [State.known, hc]
      · simp [State.known, put_ne _ _ hq]
    have hkP : ∀ p, s1.known p = true ↔ Parsed (j :: h) p := by
      intro p
      rw [hk1]
      have := known_step u internal j.w (after u internal h) (.start j.file) p
      simp only [step] at this
      rw [this, known_steps]
      simp only [Parsed, List.mem_cons, exists_eq_or_imp, Step.start.injEq, reduceCtorEq, or_false]
      constructor
      · rintro (h | h)
        · exact Or.inr h
        · exact Or.inl h
      · rintro (h | h)
        · exact Or.inr h
        · exact Or.inl h
    have hinc : ∀ g, Includes u h j g ↔ s1.known g = true ∧ ∃ t ∈ ts, target u j.w s1.known t j.file = some g := by
      intro g
      constructor
      · rintro ⟨ts', t, h', hm, hp, k, hk', hg⟩
        rw [ht] at h'; cases h'
        have : k = s1.known := by
          funext p; rw [Bool.eq_iff_iff, hk', hkP]
        rw [this] at hg
        exact ⟨(hkP g).2 hp, t, hm, hg⟩
      · rintro ⟨hp, t, hm, hg⟩
        exact ⟨ts, t, ht, hm, (hkP g).1 hp, _, hkP, hg⟩
    have hj1 : s1.job j.file = some ⟨(after u internal h).known j.file, false⟩ := by
      rw [h5]; dsimp only; rw [h4]; simp
    have hok : (⟨(after u internal h).known j.file, false⟩ : Local).recompiling = true ∨ ¬ Marked s1 j.file ∨ (⟨(after u internal h).known j.file, false⟩ : Local).seen = true := by
      dsimp only
      by_cases hk : (after u internal h).known j.file = true
      · exact Or.inl hk
      · refine Or.inr (Or.inl ?_)
        rw [hm1]
        rintro ⟨c', hc', _⟩
        exact hk (by simp [State.known, hc'])
    obtain ⟨h6, l', h7, h8⟩ := pass2_all u j.w j.file ts s1 _ hj1 hok
    generalize ts.foldl (fun s t => pass2 u j.w s j.file t) s1 = s2 at *
    simp only [← hinc, hm1] at h6 h8
    simp only [Bool.false_eq_true, false_or] at h8
    have h9 : ∀ g, Marked (stamp (cleanup s2 j.file) j.file (j.w.rev j.file)) g ↔ Marked (cleanup s2 j.file) g := by
      intro g
      unfold stamp
      split
      · next c hc =>
        by_cases hg : g = j.file
        · subst hg; simp [Marked, hc]
        · simp [Marked, put_ne _ _ hg]
      · rfl
    rw [h9]
    have h10 : Marked (cleanup s2 j.file) g ↔ Marked s2 g ∧ (g = j.file → l'.seen = true) := by
      unfold cleanup
      rw [h7]
      cases hc2 : s2.chain j.file with
      | none =>
        dsimp only
        constructor
        · intro hm
          refine ⟨hm, ?_⟩
          rintro rfl
          obtain ⟨c', hc', _⟩ := hm
          rw [hc2] at hc'; cases hc'
        · exact fun h => h.1
      | some c2 =>
        dsimp only
        by_cases hg : g = j.file
        · subst hg
          by_cases hsn : l'.seen = true <;> simp [Marked, hc2, hsn]
        · simp [Marked, put_ne _ _ hg, hg]
    rw [h10, h6]
    by_cases hg : g = j.file
    · subst hg
      have ha : j.Analyses j.file := ⟨rfl, ts, ht⟩
      simp only [ha, not_true, false_and, or_false, h8, forall_const]
      constructor
      · exact fun h => h.2
      · exact fun h => ⟨Or.inr h, h⟩
    · have ha : ¬ j.Analyses g := fun h => hg h.1.symm
      simp only [ha, not_false_iff, true_and, hg, false_imp_iff, and_true]
      exact Or.comm

/-- **C96.**  A declaration stands for a file iff the file has been included by an analysed file
(or itself) since its own last analysis: analysing an included file removes the declaration, until
a file that includes it is analysed again. -/
theorem marked_iff (u : CharClass) (internal : Path) (h : List (Job Path)) (g : Path) :
    Marked (after u internal h) g ↔
      ∃ later j earlier, h = later ++ j :: earlier ∧ Includes u earlier j g ∧ ∀ x ∈ later, ¬ x.Analyses g := by
  induction h with
  | nil => simp [after, steps, run, State.empty, Marked]
  | cons j h ih =>
    rw [marked_job, ih]
    constructor
    · rintro (h1 | ⟨h1, later, j', earlier, rfl, h2, h3⟩)
      · exact ⟨[], j, h, rfl, h1, by simp⟩
      · refine ⟨j :: later, j', earlier, rfl, h2, ?_⟩
        intro x hx
        rcases List.mem_cons.1 hx with rfl | hx
        · exact h1
        · exact h3 x hx
    · rintro ⟨later, j', earlier, heq, h2, h3⟩
      cases later with
      | nil => simp only [List.nil_append, List.cons.injEq] at heq
               obtain ⟨rfl, rfl⟩ := heq
               exact Or.inl h2
      | cons y later =>
        simp only [List.cons_append, List.cons.injEq] at heq
        obtain ⟨rfl, rfl⟩ := heq
        exact Or.inr ⟨h3 j List.mem_cons_self, later, j', earlier, rfl, h2, fun x hx => h3 x (List.mem_cons_of_mem _ hx)⟩

/-! ### Two files that include each other -/

/-- The file's record contains the revision. -/
def Records (s : State Path) (f g : Path) (r : Nat) : Prop := ∃ c, s.chain f = some c ∧ (g, r) ∈ c.all

/-- **C97, false for cycles.**  Two files `a` and `b` that include each other: once both records
contain a revision `r` of `a` that is not its present one and does not come back, no number of
analyses of the two files (in any order) removes it: neither is ever up to date again. -/
theorem mutual_never_up_to_date (u : CharClass) (internal a b : Path) (hab : a ≠ b) (r : Nat) (h0 : List (Job Path))
    (ha : Records (after u internal h0) a a r) (hb : Records (after u internal h0) b a r)
    (hown : ∃ c, (after u internal h0).chain a = some c ∧ c.own ≠ r)
    (h : List (Job Path))
    (hj : ∀ later j earlier, h = later ++ j :: earlier →
      (j.file = a ∧ Includes u (earlier ++ h0) j b ∨ j.file = b ∧ Includes u (earlier ++ h0) j a) ∧ j.w.rev a ≠ r)
    (w : World Path) (hw : w.rev a ≠ r) :
    upToDate w (after u internal (h ++ h0)) a = false ∧ upToDate w (after u internal (h ++ h0)) b = false := by
  have key : Records (after u internal (h ++ h0)) a a r ∧ Records (after u internal (h ++ h0)) b a r ∧
      ∃ c, (after u internal (h ++ h0)).chain a = some c ∧ c.own ≠ r := by
    induction h with
    | nil => exact ⟨ha, hb, hown⟩
    | cons j h ih =>
      obtain ⟨i1, i2, ⟨ca, hca, i3⟩⟩ := ih fun l x e he => hj (j :: l) x e (by rw [he]; rfl)
      obtain ⟨hf, hr⟩ := hj [] j h rfl
      simp only [List.cons_append]
      rcases hf with ⟨hf, hi⟩ | ⟨hf, hi⟩
      · obtain ⟨ts, t, ht, _⟩ := id hi
        obtain ⟨c, o, h1, _, h3, _, h5, h6⟩ := after_own u internal (h ++ h0) j ts ht
        rw [hf] at h1 h3 h5 h6
        have ho := h6 ca hca
        obtain ⟨cb, hcb, hmb⟩ := i2
        refine ⟨⟨c, h1, (h5 _).2 (Or.inr ⟨?_, b, cb, hi, fun e => hab (by rw [e]), hcb, hmb⟩)⟩, ?_, ⟨c, h1, by rw [h3]; exact hr⟩⟩
        · intro e; cases e; exact i3 ho.symm
        · have := after_other u internal (h ++ h0) j b (by rw [hf]; exact fun e => hab e.symm)
          have h7 : core (after u internal (j :: (h ++ h0))) b = some (cb.imports, cb.own, cb.all, cb.errors) := by rw [this]; simp [core, hcb]
          obtain ⟨c', h8, h9⟩ := (core_some _ _ _).1 h7
          simp only [Prod.mk.injEq] at h9
          exact ⟨c', h8, by rw [← h9.2.2.1]; exact hmb⟩
      · obtain ⟨ts, t, ht, _⟩ := id hi
        obtain ⟨c, o, h1, _, h3, _, h5, h6⟩ := after_own u internal (h ++ h0) j ts ht
        rw [hf] at h1 h3 h5 h6
        obtain ⟨ca', hca', hma⟩ := i1
        rw [hca] at hca'; cases hca'
        have := after_other u internal (h ++ h0) j a (by rw [hf]; exact hab)
        have h7 : core (after u internal (j :: (h ++ h0))) a = some (ca.imports, ca.own, ca.all, ca.errors) := by rw [this]; simp [core, hca]
        obtain ⟨c', h8, h9⟩ := (core_some _ _ _).1 h7
        simp only [Prod.mk.injEq] at h9
        refine ⟨⟨c', h8, by rw [← h9.2.2.1]; exact hma⟩, ⟨c, h1, (h5 _).2 (Or.inr ⟨?_, a, ca, hi, hab, hca, hma⟩)⟩, ⟨c', h8, by rw [← h9.2.1]; exact i3⟩⟩
        intro e; cases e; exact hab rfl
  obtain ⟨⟨c1, k1, k2⟩, ⟨c2, k3, k4⟩, _⟩ := key
  constructor
  · rw [Bool.eq_false_iff]; intro hu
    obtain ⟨c, e1, e2⟩ := (upToDate_iff _ _ _).1 hu
    rw [k1] at e1; cases e1; exact hw (e2 a r k2)
  · rw [Bool.eq_false_iff]; intro hu
    obtain ⟨c, e1, e2⟩ := (upToDate_iff _ _ _).1 hu
    rw [k3] at e1; cases e1; exact hw (e2 a r k4)

end KPhp.Project

import Verif.Duchain.ProjectProofs
/-
Properties C96 and C97, part 2: histories of jobs that run one after the other.
-/
namespace KPhp.Project

set_option linter.unusedSectionVars false

variable {Path : Type} [DecidableEq Path]

/-! ### Histories -/

/-- A job: the world while it runs, its document, and the string tokens of the include expressions
of the text (`none`: the text has a syntax error).  Simplified: both passes visit the same include
expressions. -/
structure Job (Path : Type) where
  w : World Path
  file : Path
  text : Option (List QString)

/-- The steps of a job, the latest first. -/
def Job.steps (j : Job Path) : List (World Path × Step Path) :=
  match j.text with
  | none => [(j.w, .failed j.file)]
  | some ts => (j.w, .stamp j.file (j.w.rev j.file)) :: (j.w, .cleanup j.file) ::
      ((ts.map (fun t => (j.w, Step.pass2 j.file t))).reverse ++
        ((ts.map (fun t => (j.w, Step.pass1 j.file t))).reverse ++ [(j.w, .start j.file)]))

/-- The steps of jobs that run one after the other (both lists: the latest first). -/
def steps (h : List (Job Path)) : List (World Path × Step Path) := h.flatMap Job.steps

/-- The state after jobs that run one after the other. -/
def after (u : CharClass) (internal : Path) (h : List (Job Path)) : State Path := run u internal (steps h)

/-! ### Specification -/

/-- The file has been parsed. -/
def Parsed (h : List (Job Path)) (f : Path) : Prop := ∃ j ∈ h, j.file = f

/-- The job is a successful analysis of the file. -/
def Job.Analyses (j : Job Path) (f : Path) : Prop := j.file = f ∧ ∃ ts, j.text = some ts

/-- In the text of the job's file, an include expression refers to the file `g`, given the jobs
before, and `g` has been parsed. -/
def Includes (u : CharClass) (h : List (Job Path)) (j : Job Path) (g : Path) : Prop :=
  ∃ ts t, j.text = some ts ∧ t ∈ ts ∧ Parsed (j :: h) g ∧
    ∃ known : Path → Bool, (∀ p, known p = true ↔ Parsed (j :: h) p) ∧ target u j.w known t j.file = some g

/-- What the last analysis of the file `f` rests on: the revision of `f` that was read, and the
revisions of other files that the analyses of the included files rested on.  A failed attempt
changes nothing. -/
inductive RestsOn (u : CharClass) : List (Job Path) → Path → Path → Nat → Prop
  | own {j h ts} : j.text = some ts → RestsOn u (j :: h) j.file j.file (j.w.rev j.file)
  | included {j h g' g r} : Includes u h j g' → g' ≠ j.file → RestsOn u h g' g r → g ≠ j.file →
      RestsOn u (j :: h) j.file g r
  | kept {j h f g r} : ¬ j.Analyses f → RestsOn u h f g r → RestsOn u (j :: h) f g r

/-- No file was included, directly or through others, by a file it included. -/
def NoCycle (u : CharClass) (h : List (Job Path)) : Prop :=
  ∀ later j earlier, h = later ++ j :: earlier → ∀ g, Includes u earlier j g → g ≠ j.file → ∀ r, ¬ RestsOn u earlier g j.file r

/-! ### Proofs -/

theorem known_steps (u : CharClass) (internal : Path) (h : List (Job Path)) (f : Path) :
    (after u internal h).known f = true ↔ Parsed h f := by
  unfold after
  rw [known_iff]
  unfold Known Parsed steps
  simp only [List.mem_flatMap]
  constructor
  · rintro ⟨w, ⟨j, hj, h'⟩ | ⟨j, hj, h'⟩⟩
    all_goals
      refine ⟨j, hj, ?_⟩
      unfold Job.steps at h'
      cases ht : j.text with
      | none => rw [ht] at h'; simp at h'; try exact h'.2.symm
      | some ts => rw [ht] at h'; simp at h'; try exact h'.2.symm
  · rintro ⟨j, hj, rfl⟩
    refine ⟨j.w, ?_⟩
    cases ht : j.text with
    | none => exact Or.inr ⟨j, hj, by simp [Job.steps, ht]⟩
    | some ts => exact Or.inl ⟨j, hj, by simp [Job.steps, ht]⟩

theorem run_append (u : CharClass) (internal : Path) (a b : List (World Path × Step Path)) :
    run u internal (a ++ b) = a.foldr (fun e s => step u internal e.1 s e.2) (run u internal b) := by
  induction a with
  | nil => rfl
  | cons x a ih => simp only [List.cons_append, run, List.foldr_cons, ih]

/-- What the first pass does. -/
theorem pass1_all (u : CharClass) (w : World Path) (f : Path) (ts : List QString) (s : State Path) (c : Chain Path)
    (hc : s.chain f = some c) :
    ∃ imp al, (ts.foldl (fun s t => pass1 u w s f t) s) = ⟨put s.chain f (some { c with imports := imp, all := al }), s.job⟩ ∧
      (∀ g, g ∈ imp ↔ g ∈ c.imports ∨ (g ≠ f ∧ s.known g = true ∧ ∃ t ∈ ts, target u w s.known t f = some g)) ∧
      (∀ x, x ∈ al ↔ x ∈ c.all ∨ ∃ g cg t, t ∈ ts ∧ g ≠ f ∧ s.chain g = some cg ∧ x ∈ cg.all ∧ target u w s.known t f = some g) := by
  induction ts generalizing s c with
  | nil =>
    refine ⟨c.imports, c.all, ?_, ?_, ?_⟩
    · have : put s.chain f (some c) = s.chain := by
        funext q; by_cases hq : q = f
        · subst hq; simp [hc]
        · rw [put_ne _ _ hq]
      simp only [List.foldl_nil, this]
    · simp
    · simp
  | cons t ts ih =>
    simp only [List.foldl_cons]
    cases ht : target u w s.known t f with
    | none =>
      have e : pass1 u w s f t = s := by simp [pass1, ht]
      rw [e]
      obtain ⟨imp, al, h1, h2, h3⟩ := ih s c hc
      refine ⟨imp, al, h1, ?_, ?_⟩
      · intro g; rw [h2]; simp only [List.mem_cons]
        constructor
        · rintro (h | ⟨a, b, t', h, h'⟩)
          · exact Or.inl h
          · exact Or.inr ⟨a, b, t', Or.inr h, h'⟩
        · rintro (h | ⟨a, b, t', rfl | h, h'⟩)
          · exact Or.inl h
          · rw [ht] at h'; cases h'
          · exact Or.inr ⟨a, b, t', h, h'⟩
      · intro x; rw [h3]; simp only [List.mem_cons]
        constructor
        · rintro (h | ⟨g, cg, t', h, h'⟩)
          · exact Or.inl h
          · exact Or.inr ⟨g, cg, t', Or.inr h, h'⟩
        · rintro (h | ⟨g, cg, t', rfl | h, h'⟩)
          · exact Or.inl h
          · rw [ht] at h'; exact absurd h'.2.2.2 (by simp)
          · exact Or.inr ⟨g, cg, t', h, h'⟩
    | some g0 =>
      cases hg : s.chain g0 with
      | none =>
        have e : pass1 u w s f t = s := by simp [pass1, ht, hg]
        rw [e]
        obtain ⟨imp, al, h1, h2, h3⟩ := ih s c hc
        refine ⟨imp, al, h1, ?_, ?_⟩
        · intro g; rw [h2]; simp only [List.mem_cons]
          constructor
          · rintro (h | ⟨a, b, t', h, h'⟩)
            · exact Or.inl h
            · exact Or.inr ⟨a, b, t', Or.inr h, h'⟩
          · rintro (h | ⟨a, b, t', rfl | h, h'⟩)
            · exact Or.inl h
            · rw [ht] at h'; cases h'; simp [State.known, hg] at b
            · exact Or.inr ⟨a, b, t', h, h'⟩
        · intro x; rw [h3]; simp only [List.mem_cons]
          constructor
          · rintro (h | ⟨g, cg, t', h, h'⟩)
            · exact Or.inl h
            · exact Or.inr ⟨g, cg, t', Or.inr h, h'⟩
          · rintro (h | ⟨g, cg, t', rfl | h, h'⟩)
            · exact Or.inl h
            · obtain ⟨_, h1, _, h2⟩ := h'
              rw [ht] at h2; cases h2; rw [hg] at h1; cases h1
            · exact Or.inr ⟨g, cg, t', h, h'⟩
      | some cg =>
        have e : pass1 u w s f t = ⟨put s.chain f (some { c with imports := addImport f c.imports g0, all := c.all ++ cg.all }), s.job⟩ := by
          simp only [pass1, ht, hg, hc]
        rw [e]
        have hk : (⟨put s.chain f (some { c with imports := addImport f c.imports g0, all := c.all ++ cg.all }), s.job⟩ : State Path).known = s.known := by
          funext q
          by_cases hq : q = f
          · subst hq; simp [State.known, hc]
          · simp [State.known, put_ne _ _ hq]
        obtain ⟨imp, al, h1, h2, h3⟩ := ih ⟨put s.chain f (some { c with imports := addImport f c.imports g0, all := c.all ++ cg.all }), s.job⟩
          { c with imports := addImport f c.imports g0, all := c.all ++ cg.all } (by simp)
        rw [hk] at h2 h3
        refine ⟨imp, al, ?_, ?_, ?_⟩
        · rw [h1]
          simp only [State.mk.injEq, and_true]
          funext q
          by_cases hq : q = f
          · subst hq; simp
          · simp [put_ne _ _ hq]
        · intro g; rw [h2]; simp only [List.mem_cons, mem_addImport]
          constructor
          · rintro ((h | ⟨rfl, h⟩) | ⟨a, b, t', h, h'⟩)
            · exact Or.inl h
            · exact Or.inr ⟨h, (by simp [State.known, hg]), t, Or.inl rfl, ht⟩
            · exact Or.inr ⟨a, b, t', Or.inr h, h'⟩
          · rintro (h | ⟨a, b, t', rfl | h, h'⟩)
            · exact Or.inl (Or.inl h)
            · rw [ht] at h'; cases h'; exact Or.inl (Or.inr ⟨rfl, a⟩)
            · exact Or.inr ⟨a, b, t', h, h'⟩
        · intro x; rw [h3]; simp only [List.mem_cons, List.mem_append]
          constructor
          · rintro ((h | h) | ⟨g, cg', t', h, h1, h2, h3⟩)
            · exact Or.inl h
            · by_cases hgf : g0 = f
              · subst hgf; rw [hc] at hg; cases hg; exact Or.inl h
              · exact Or.inr ⟨g0, cg, t, Or.inl rfl, hgf, hg, h, ht⟩
            · rw [put_ne _ _ h1] at h2
              exact Or.inr ⟨g, cg', t', Or.inr h, h1, h2, h3⟩
          · rintro (h | ⟨g, cg', t', rfl | h, h1, h2, h3, h4⟩)
            · exact Or.inl (Or.inl h)
            · rw [ht] at h4; cases h4; rw [hg] at h2; cases h2; exact Or.inl (Or.inr h3)
            · exact Or.inr ⟨g, cg', t', h, h1, (by rw [put_ne _ _ h1]; exact h2), h3, h4⟩

theorem foldl_eq_foldr {α σ : Type} (g : σ → α → σ) (l : List α) (s : σ) :
    l.reverse.foldr (fun a s => g s a) s = l.foldl g s := by simp

/-- The core of the state is not changed by the second pass. -/
theorem pass2_all_core (u : CharClass) (w : World Path) (f : Path) (ts : List QString) (s : State Path) (q : Path) :
    core (ts.foldl (fun s t => pass2 u w s f t) s) q = core s q := by
  induction ts generalizing s with
  | nil => rfl
  | cons t ts ih => simp only [List.foldl_cons]; rw [ih, pass2_core]

/-- The states between the steps of a successful job. -/
theorem after_success (u : CharClass) (internal : Path) (h : List (Job Path)) (j : Job Path) (ts : List QString) (ht : j.text = some ts) :
    after u internal (j :: h) = stamp (cleanup (ts.foldl (fun s t => pass2 u j.w s j.file t)
      (ts.foldl (fun s t => pass1 u j.w s j.file t) (start internal j.w (after u internal h) j.file))) j.file) j.file (j.w.rev j.file) := by
  unfold after steps
  rw [List.flatMap_cons, run_append]
  simp only [Job.steps, ht, List.foldr_cons, List.foldr_append, ← List.map_reverse, List.foldr_map, step, List.foldr_nil]
  simp only [List.foldr_reverse]

theorem after_failure (u : CharClass) (internal : Path) (h : List (Job Path)) (j : Job Path) (ht : j.text = none) :
    after u internal (j :: h) = failed j.w (after u internal h) j.file := by
  unfold after steps
  rw [List.flatMap_cons, run_append]
  simp only [Job.steps, ht, List.foldr_cons, step, List.foldr_nil]

theorem core_some (s : State Path) (f : Path) (x) : core s f = some x ↔ ∃ c, s.chain f = some c ∧ x = (c.imports, c.own, c.all, c.errors) := by
  unfold core
  cases s.chain f with
  | none => simp
  | some c => simp; exact ⟨fun h => h.symm, fun h => h.symm⟩

theorem after_other (u : CharClass) (internal : Path) (h : List (Job Path)) (j : Job Path) (q : Path) (hq : q ≠ j.file) :
    core (after u internal (j :: h)) q = core (after u internal h) q := by
  cases ht : j.text with
  | none =>
    rw [after_failure u internal h j ht]
    exact step_other u internal j.w _ (.failed j.file) q hq
  | some ts =>
    rw [after_success u internal h j ts ht]
    refine (step_other u internal j.w _ (.stamp j.file _) q hq).trans ?_
    rw [cleanup_core, pass2_all_core]
    obtain ⟨imp, h1, _, h3, _⟩ := start_chain internal j.w (after u internal h) j.file
    have hc : ∃ c, (start internal j.w (after u internal h) j.file).chain j.file = some c := ⟨_, h1⟩
    obtain ⟨c, hc⟩ := hc
    obtain ⟨imp', al, h4, _⟩ := pass1_all u j.w j.file ts _ c hc
    rw [h4]
    simp only [core, put_ne _ _ hq, h3 q hq]

/-- What a successful job leaves for its own file. -/
theorem after_own (u : CharClass) (internal : Path) (h : List (Job Path)) (j : Job Path) (ts : List QString) (ht : j.text = some ts) :
    ∃ c o, (after u internal (j :: h)).chain j.file = some c ∧
      (∀ g, g ∈ c.imports ↔ g ≠ j.file ∧ ((g = internal ∧ Parsed h g) ∨ Includes u h j g)) ∧
      c.own = j.w.rev j.file ∧ c.errors = false ∧
      (∀ x, x ∈ c.all ↔ x = (j.file, j.w.rev j.file) ∨ (x ≠ (j.file, o) ∧
        ∃ g cg, Includes u h j g ∧ g ≠ j.file ∧ (after u internal h).chain g = some cg ∧ x ∈ cg.all)) ∧
      (∀ c', (after u internal h).chain j.file = some c' → o = c'.own) := by
  rw [after_success u internal h j ts ht]
  obtain ⟨imp, h1, h2, h3, _⟩ := start_chain internal j.w (after u internal h) j.file
  have hc : ∃ c, (start internal j.w (after u internal h) j.file).chain j.file = some c ∧ c.imports = imp ∧ c.all = [(j.file, c.own)] ∧ c.errors = false ∧
      (∀ c', (after u internal h).chain j.file = some c' → c.own = c'.own) := by
    refine ⟨_, h1, ?_⟩
    cases hs : (after u internal h).chain j.file with
    | none => exact ⟨rfl, rfl, rfl, fun _ h => by cases h⟩
    | some c => exact ⟨rfl, rfl, rfl, fun c' h => by cases h; rfl⟩
  obtain ⟨c, hc, hi, ha, he, ho⟩ := hc
  have hk : (start internal j.w (after u internal h) j.file).known = fun p => decide (p = j.file) || (after u internal h).known p := by
    funext p
    have := known_step u internal j.w (after u internal h) (.start j.file) p
    rw [Bool.eq_iff_iff]
    simp only [step] at this
    rw [this]; simp; constructor
    · rintro (h | h)
      · exact Or.inr h
      · exact Or.inl h.symm
    · rintro (h | h)
      · exact Or.inr h.symm
      · exact Or.inl h
  have hkP : ∀ p, (start internal j.w (after u internal h) j.file).known p = true ↔ Parsed (j :: h) p := by
    intro p
    rw [hk]
    simp only [Bool.or_eq_true, decide_eq_true_eq, known_steps, Parsed, List.mem_cons, exists_eq_or_imp]
    constructor
    · rintro (h | h)
      · exact Or.inl h.symm
      · exact Or.inr h
    · rintro (h | h)
      · exact Or.inl h.symm
      · exact Or.inr h
  have hinc : ∀ g, Includes u h j g ↔ (start internal j.w (after u internal h) j.file).known g = true ∧
      ∃ t ∈ ts, target u j.w (start internal j.w (after u internal h) j.file).known t j.file = some g := by
    intro g
    constructor
    · rintro ⟨ts', t, h', hm, hp, k, hk', hg⟩
      rw [ht] at h'; cases h'
      have : k = (start internal j.w (after u internal h) j.file).known := by
        funext p; rw [Bool.eq_iff_iff, hk', hkP]
      rw [this] at hg
      exact ⟨(hkP g).2 hp, t, hm, hg⟩
    · rintro ⟨hp, t, hm, hg⟩
      exact ⟨ts, t, ht, hm, (hkP g).1 hp, _, hkP, hg⟩
  obtain ⟨imp', al, h4, h5, h6⟩ := pass1_all u j.w j.file ts _ c hc
  have hcore : core (cleanup (ts.foldl (fun s t => pass2 u j.w s j.file t)
      (ts.foldl (fun s t => pass1 u j.w s j.file t) (start internal j.w (after u internal h) j.file))) j.file) j.file = some (imp', c.own, al, c.errors) := by
    rw [cleanup_core, pass2_all_core, h4]
    simp [core]
  rw [core_some] at hcore
  obtain ⟨c1, hc1, heq⟩ := hcore
  simp only [Prod.mk.injEq] at heq
  obtain ⟨e1, e2, e3, e4⟩ := heq
  simp only [stamp, hc1]
  refine ⟨_, c.own, put_same _ _ _, ?_, rfl, ?_, ?_, ho⟩
  · intro g
    dsimp only
    rw [← e1, h5, hi, h2, known_steps, hinc]
    constructor
    · rintro (⟨a, b, c⟩ | ⟨a, b, c⟩)
      · exact ⟨b, Or.inl ⟨a, c⟩⟩
      · exact ⟨a, Or.inr ⟨b, c⟩⟩
    · rintro ⟨a, ⟨b, c⟩ | ⟨b, c⟩⟩
      · exact Or.inl ⟨b, a, c⟩
      · exact Or.inr ⟨a, b, c⟩
  · exact e4.symm.trans he
  · intro x
    dsimp only
    simp only [List.mem_append, List.mem_filter, List.mem_singleton, ← e3, ← e2, h6, ha, decide_eq_true_eq]
    constructor
    · rintro (⟨(h | ⟨g, cg, t, a, b, c, d, e⟩), h'⟩ | h)
      · exact absurd h h'
      · rw [h3 g b] at c
        exact Or.inr ⟨h', g, cg, (hinc g).2 ⟨(hkP g).2 ((known_steps u internal (j :: h) g).1 (by
          rw [known_eq, after_other u internal h j g b, ← known_eq]; simp [State.known, c])), t, a, e⟩, b, c, d⟩
      · exact Or.inl h
    · rintro (h | ⟨h', g, cg, a, b, c, d⟩)
      · exact Or.inr h
      · obtain ⟨_, t, h1, h2⟩ := (hinc g).1 a
        exact Or.inl ⟨Or.inr ⟨g, cg, t, h1, b, (by rw [h3 g b]; exact c), d, h2⟩, h'⟩

/-- **C96.**  After jobs that ran one after the other: a file imports exactly the files its text
included when it was last analysed, as far as they had been parsed before, and the file of the
built-in functions. -/
theorem imports_history (u : CharClass) (internal : Path) (later earlier : List (Job Path)) (j : Job Path) (f g : Path)
    (hj : j.Analyses f) (hl : ∀ x ∈ later, ¬ x.Analyses f) :
    Imports (after u internal (later ++ j :: earlier)) f g ↔
      g ≠ f ∧ ((g = internal ∧ Parsed earlier g) ∨ Includes u earlier j g) := by
  induction later with
  | nil =>
    obtain ⟨rfl, ts, ht⟩ := hj
    obtain ⟨c, o, h1, h2, _⟩ := after_own u internal earlier j ts ht
    simp only [List.nil_append, Imports, h1, Option.some.injEq, exists_eq_left']
    exact h2 g
  | cons x later ih =>
    rw [← ih fun y hy => hl y (List.mem_cons_of_mem _ hy)]
    simp only [List.cons_append]
    by_cases hx : f = x.file
    · have : x.text = none := by
        cases ht : x.text with
        | none => rfl
        | some ts => exact absurd ⟨hx.symm, ts, ht⟩ (hl x List.mem_cons_self)
      rw [after_failure u internal _ x this]
      subst hx
      simp only [failed]
      split
      · next c hc => simp [Imports, hc]
      · next hc => simp [Imports, hc]
    · rw [imports_core, after_other u internal _ x f hx, ← imports_core]

/-- All revisions an analysis rests on are recorded, if no job failed. -/
theorem recorded (u : CharClass) (internal : Path) (h : List (Job Path)) (hok : ∀ j ∈ h, j.text ≠ none) (f g : Path) (r : Nat)
    (hr : RestsOn u h f g r) : ∃ c, (after u internal h).chain f = some c ∧ (g, r) ∈ c.all := by
  induction hr with
  | @own j h ts ht =>
    obtain ⟨c, o, h1, _, _, _, h2, _⟩ := after_own u internal h j ts ht
    exact ⟨c, h1, (h2 _).2 (Or.inl rfl)⟩
  | @included j h g' g r hi hg' _ hg ih =>
    obtain ⟨ts, t, ht, _⟩ := id hi
    obtain ⟨c, o, h1, _, _, _, h2, _⟩ := after_own u internal h j ts ht
    obtain ⟨cg, h3, h4⟩ := ih fun x hx => hok x (List.mem_cons_of_mem _ hx)
    exact ⟨c, h1, (h2 _).2 (Or.inr ⟨fun e => hg (by cases e; rfl), g', cg, hi, hg', h3, h4⟩)⟩
  | @kept j h f g r hn _ ih =>
    obtain ⟨c, h1, h2⟩ := ih fun x hx => hok x (List.mem_cons_of_mem _ hx)
    have hf : f ≠ j.file := by
      intro hf
      cases ht : j.text with
      | none => exact hok j List.mem_cons_self ht
      | some ts => exact hn ⟨hf.symm, ts, ht⟩
    have := after_other u internal h j f hf
    have h5 : core (after u internal (j :: h)) f = some (c.imports, c.own, c.all, c.errors) := by rw [this]; simp [core, h1]
    obtain ⟨c', h6, h7⟩ := (core_some _ _ _).1 h5
    simp only [Prod.mk.injEq] at h7
    exact ⟨c', h6, by rw [← h7.2.2.1]; exact h2⟩

/-- Nothing else is recorded, if there was no cycle of includes. -/
theorem recorded_only (u : CharClass) (internal : Path) (h : List (Job Path)) (hok : ∀ j ∈ h, j.text ≠ none) (hn : NoCycle u h)
    (f g : Path) (r : Nat) (c : Chain Path) (hc : (after u internal h).chain f = some c) (hm : (g, r) ∈ c.all) : RestsOn u h f g r := by
  induction h generalizing f g r c with
  | nil => simp [after, steps, run, State.empty] at hc
  | cons j h ih =>
    have ih' := ih (fun x hx => hok x (List.mem_cons_of_mem _ hx)) (fun l x e he => hn (j :: l) x e (by rw [he]; rfl))
    cases ht : j.text with
    | none => exact absurd ht (hok j List.mem_cons_self)
    | some ts =>
      by_cases hf : f = j.file
      · subst hf
        obtain ⟨c', o, h1, _, _, _, h2, _⟩ := after_own u internal h j ts ht
        rw [hc] at h1; cases h1
        rcases (h2 _).1 hm with h3 | ⟨_, g', cg, h4, h5, h6, h7⟩
        · cases h3; exact .own ht
        · have hr := ih' g' g r cg h6 h7
          refine .included h4 h5 hr ?_
          rintro rfl
          exact hn [] j h rfl g' h4 h5 r hr
      · have h3 := after_other u internal h j f hf
        have h5 : core (after u internal h) f = some (c.imports, c.own, c.all, c.errors) := by rw [← h3]; simp [core, hc]
        obtain ⟨c', h6, h7⟩ := (core_some _ _ _).1 h5
        simp only [Prod.mk.injEq] at h7
        exact .kept (fun ha => hf ha.1.symm) (ih' f g r c' h6 (by rw [← h7.2.2.1]; exact hm))

theorem upToDate_iff (w : World Path) (s : State Path) (f : Path) :
    upToDate w s f = true ↔ ∃ c, s.chain f = some c ∧ ∀ g r, (g, r) ∈ c.all → w.rev g = r := by
  unfold upToDate
  cases s.chain f with
  | none => simp
  | some c => simp

/-- **C97 (partial).**  If no job failed, a file that counts as up to date was analysed with the
present text of every file its analysis rests on. -/
theorem up_to_date_unchanged_partial (u : CharClass) (internal : Path) (h : List (Job Path)) (hok : ∀ j ∈ h, j.text ≠ none)
    (w : World Path) (f : Path) (hu : upToDate w (after u internal h) f = true) (g : Path) (r : Nat) (hr : RestsOn u h f g r) :
    w.rev g = r := by
  obtain ⟨c, h1, h2⟩ := (upToDate_iff _ _ _).1 hu
  obtain ⟨c', h3, h4⟩ := recorded u internal h hok f g r hr
  rw [h1] at h3; cases h3
  exact h2 g r h4

/-- **C97 (partial).**  If no job failed and no file includes itself through others, a file that has
been parsed counts as up to date iff nothing its analysis rests on has changed. -/
theorem up_to_date_iff_partial (u : CharClass) (internal : Path) (h : List (Job Path)) (hok : ∀ j ∈ h, j.text ≠ none) (hn : NoCycle u h)
    (w : World Path) (f : Path) (hp : Parsed h f) :
    upToDate w (after u internal h) f = true ↔ ∀ g r, RestsOn u h f g r → w.rev g = r := by
  constructor
  · intro hu g r hr; exact up_to_date_unchanged_partial u internal h hok w f hu g r hr
  · intro ha
    rw [upToDate_iff]
    rw [← known_steps u internal] at hp
    simp only [State.known, Option.isSome_iff_exists] at hp
    obtain ⟨c, hc⟩ := hp
    exact ⟨c, hc, fun g r hm => ha g r (recorded_only u internal h hok hn f g r c hc hm)⟩

end KPhp.Project

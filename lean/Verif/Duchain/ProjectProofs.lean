import Verif.Duchain.Project
/-
Properties C96 (what a file imports) and C97 (when a file counts as up to date), part 1: for every
schedule of the jobs.
-/
namespace KPhp.Project

open KPhp.Include (includeForLiteral)

set_option linter.unusedSectionVars false

variable {Path : Type} [DecidableEq Path]

/-- The file a step works on. -/
def Step.file : Step Path → Path
  | .start f => f
  | .pass1 f _ => f
  | .pass2 f _ => f
  | .cleanup f => f
  | .stamp f _ => f
  | .failed f => f

/-! ### Specification -/

/-- The file has been parsed, with or without success. -/
def Known (tr : List (World Path × Step Path)) (f : Path) : Prop :=
  ∃ w, (w, Step.start f) ∈ tr ∨ (w, Step.failed f) ∈ tr

/-- Given what has been parsed before, an include expression with the string token `t` in the file
`f` refers to the file `g` (C27). -/
def RefersTo (u : CharClass) (w : World Path) (before : List (World Path × Step Path)) (t : QString) (f g : Path) : Prop :=
  ∃ known : Path → Bool, (∀ p, known p = true ↔ Known before p) ∧ target u w known t f = some g

/-- What an include expression with the string token `t` in the file `f` names: its text without the
quotes, if that is neither empty nor a directory (`.`, `..`, or something that ends with `/`), is a
remote path and stands for itself, or the first of the places where it is looked for (next to the
file, in the projects around it, in all projects) at which there is a parsed document or a file. -/
def Names (u : CharClass) (w : World Path) (known : Path → Bool) (t : QString) (f g : Path) : Prop :=
  ∃ a name b, t = a :: (name ++ [b]) ∧ name ≠ [] ∧ name ≠ q! "." ∧ name ≠ q! ".." ∧ (∀ x, name ≠ x ++ q! "/") ∧
    ((Include.IsRemote u name ∧ g = w.url name) ∨
      (¬ Include.IsRemote u name ∧ Include.FirstPresent (w.env known) (Include.candidates (w.env known) name f) (.file g)))

/-- The file imports the other one. -/
def Imports (s : State Path) (f g : Path) : Prop := ∃ c, s.chain f = some c ∧ g ∈ c.imports

/-! ### Proofs -/

@[simp] theorem put_same {α : Type} (m : Path → α) (p : Path) (a : α) : put m p a p = a := by simp [put]

theorem put_ne {α : Type} (m : Path → α) {p q : Path} (a : α) (h : q ≠ p) : put m p a q = m q := by simp [put, h]

/-- All but the marks. -/
def core (s : State Path) (f : Path) : Option (List Path × Nat × List (Path × Nat) × Bool) :=
  (s.chain f).map (fun c => (c.imports, c.own, c.all, c.errors))

theorem known_eq (s : State Path) (f : Path) : s.known f = (core s f).isSome := by
  simp [State.known, core]

theorem core_put_ne (m : Path → Option (Chain Path)) (jb : Path → Option Local) {p q : Path} (a : Option (Chain Path)) (h : q ≠ p) :
    core (⟨put m p a, jb⟩ : State Path) q = core ⟨m, jb⟩ q := by simp [core, put, h]

theorem start_chain (internal : Path) (w : World Path) (s : State Path) (f : Path) :
    ∃ imp, (start internal w s f).chain f = some (match s.chain f with
        | some c => { c with imports := imp, all := [(f, c.own)], errors := false }
        | none => ⟨imp, w.rev f, [(f, w.rev f)], 0, false⟩) ∧
      (∀ g, g ∈ imp ↔ g = internal ∧ g ≠ f ∧ s.known g = true) ∧
      (∀ q, q ≠ f → (start internal w s f).chain q = s.chain q) ∧
      (start internal w s f).job = put s.job f (some ⟨s.known f, false⟩) := by
  have key : ∀ (c : Chain Path), c.imports = [] →
      ∃ imp, ((if c.imports.isEmpty = true ∧ f ≠ internal then
          if (⟨put s.chain f (some c), put s.job f (some ⟨s.known f, false⟩)⟩ : State Path).known internal = true then
            ⟨put (put s.chain f (some c)) f (some { c with imports := addImport f c.imports internal }), put s.job f (some ⟨s.known f, false⟩)⟩
          else ⟨put s.chain f (some c), put s.job f (some ⟨s.known f, false⟩)⟩
        else ⟨put s.chain f (some c), put s.job f (some ⟨s.known f, false⟩)⟩ : State Path).chain f = some { c with imports := imp }) ∧
      (∀ g, g ∈ imp ↔ g = internal ∧ g ≠ f ∧ s.known g = true) ∧
      (∀ q, q ≠ f → (if c.imports.isEmpty = true ∧ f ≠ internal then
          if (⟨put s.chain f (some c), put s.job f (some ⟨s.known f, false⟩)⟩ : State Path).known internal = true then
            ⟨put (put s.chain f (some c)) f (some { c with imports := addImport f c.imports internal }), put s.job f (some ⟨s.known f, false⟩)⟩
          else ⟨put s.chain f (some c), put s.job f (some ⟨s.known f, false⟩)⟩
        else ⟨put s.chain f (some c), put s.job f (some ⟨s.known f, false⟩)⟩ : State Path).chain q = s.chain q) ∧
      (if c.imports.isEmpty = true ∧ f ≠ internal then
          if (⟨put s.chain f (some c), put s.job f (some ⟨s.known f, false⟩)⟩ : State Path).known internal = true then
            ⟨put (put s.chain f (some c)) f (some { c with imports := addImport f c.imports internal }), put s.job f (some ⟨s.known f, false⟩)⟩
          else ⟨put s.chain f (some c), put s.job f (some ⟨s.known f, false⟩)⟩
        else ⟨put s.chain f (some c), put s.job f (some ⟨s.known f, false⟩)⟩ : State Path).job = put s.job f (some ⟨s.known f, false⟩) := by
    intro c hc
    by_cases hf : f = internal
    · subst hf
      refine ⟨[], ?_, ?_, ?_, ?_⟩
      · simp [hc]; cases c; simp at hc; simp [hc]
      · intro g; simp; intro h h'; exact absurd h h'
      · intro q hq; simp [put, hq]
      · simp
    · have hf' : internal ≠ f := fun h => hf h.symm
      by_cases hk : s.known internal = true
      · have hk' : (⟨put s.chain f (some c), put s.job f (some ⟨s.known f, false⟩)⟩ : State Path).known internal = true := by
          simpa [State.known, put, hf'] using hk
        refine ⟨[internal], ?_, ?_, ?_, ?_⟩
        · simp [hc, hf, hk', addImport, hf']
        · intro g; simp only [List.mem_singleton]
          constructor
          · rintro rfl; exact ⟨rfl, hf', hk⟩
          · exact fun h => h.1
        · intro q hq; simp [hc, hf, hk', put, hq]
        · simp [hc, hf, hk']
      · have hk' : ¬ (⟨put s.chain f (some c), put s.job f (some ⟨s.known f, false⟩)⟩ : State Path).known internal = true := by
          simpa [State.known, put, hf'] using hk
        refine ⟨[], ?_, ?_, ?_, ?_⟩
        · simp [hc, hf, hk']; cases c; simp at hc; simp [hc]
        · intro g; constructor
          · simp
          · rintro ⟨rfl, _, h⟩; exact absurd h hk
        · intro q hq; simp [hc, hf, hk', put, hq]
        · simp [hc, hf, hk']
  unfold start
  cases hs : s.chain f with
  | none => exact key ⟨[], w.rev f, [(f, w.rev f)], 0, false⟩ rfl
  | some c => exact key { c with imports := [], all := [(f, c.own)], errors := false } rfl

theorem pass2_core (u : CharClass) (w : World Path) (s : State Path) (f q : Path) (t : QString) :
    core (pass2 u w s f t) q = core s q := by
  unfold pass2
  split
  · rfl
  · next g _ =>
    split
    · rfl
    · next cg hg =>
      split
      · split <;> rfl
      · by_cases hq : q = g
        · subst hq; simp [core, hg]
        · simp [core, put, hq]

theorem cleanup_core (s : State Path) (f q : Path) : core (cleanup s f) q = core s q := by
  unfold cleanup
  split
  · next c l hc hl =>
    by_cases hq : q = f
    · subst hq; simp [core, hc]
    · simp [core, put, hq]
  · rfl

theorem step_other (u : CharClass) (internal : Path) (w : World Path) (s : State Path) (e : Step Path) (q : Path)
    (h : q ≠ e.file) : core (step u internal w s e) q = core s q := by
  cases e with
  | start f =>
    obtain ⟨imp, _, _, h3, _⟩ := start_chain internal w s f
    simp only [step, core, h3 q h]
  | pass1 f t =>
    simp only [step, pass1]
    split
    · rfl
    · split
      · simp only [core]; rw [put_ne _ _ (show q ≠ f from h)]
      · rfl
  | pass2 f t => exact pass2_core u w s f q t
  | cleanup f => exact cleanup_core s f q
  | stamp f r =>
    simp only [step, stamp]
    split
    · simp only [core]; rw [put_ne _ _ (show q ≠ f from h)]
    · rfl
  | failed f =>
    simp only [step, failed]
    split <;> (simp only [core]; rw [put_ne _ _ (show q ≠ f from h)])

theorem known_step (u : CharClass) (internal : Path) (w : World Path) (s : State Path) (e : Step Path) (q : Path) :
    (step u internal w s e).known q = true ↔ s.known q = true ∨ e = .start q ∨ e = .failed q := by
  by_cases h : q = e.file
  · subst h
    cases e with
    | start f =>
      obtain ⟨imp, h1, _⟩ := start_chain internal w s f
      simp [step, State.known, Step.file, h1]
    | pass1 f t =>
      simp only [step, pass1, Step.file]
      split
      · simp
      · split
        · next h1 h2 => simp [State.known, h2]
        · simp
    | pass2 f t =>
      have := pass2_core u w s f f t
      simp [step, Step.file, known_eq, this]
    | cleanup f =>
      have := cleanup_core s f f
      simp [step, Step.file, known_eq, this]
    | stamp f r =>
      simp only [step, stamp, Step.file]
      split
      · next h => simp [State.known, h]
      · simp
    | failed f =>
      simp only [step, failed, Step.file]
      split <;> simp [State.known]
  · have := step_other u internal w s e q h
    rw [known_eq, this, ← known_eq]
    constructor
    · exact Or.inl
    · rintro (h' | rfl | rfl)
      · exact h'
      · exact absurd rfl h
      · exact absurd rfl h

/-- **C96.**  A document has a chain iff it has been parsed, whatever the schedule. -/
theorem known_iff (u : CharClass) (internal : Path) (tr : List (World Path × Step Path)) (f : Path) :
    (run u internal tr).known f = true ↔ Known tr f := by
  induction tr with
  | nil => simp [run, State.known, State.empty, Known]
  | cons e tr ih =>
    obtain ⟨w, e⟩ := e
    simp only [run, known_step, ih, Known, List.mem_cons, Prod.mk.injEq]
    constructor
    · rintro (⟨w', h | h⟩ | rfl | rfl)
      · exact ⟨w', Or.inl (Or.inr h)⟩
      · exact ⟨w', Or.inr (Or.inr h)⟩
      · exact ⟨w, Or.inl (Or.inl ⟨rfl, rfl⟩)⟩
      · exact ⟨w, Or.inr (Or.inl ⟨rfl, rfl⟩)⟩
    · rintro ⟨w', (⟨_, h⟩ | h) | (⟨_, h⟩ | h)⟩
      · exact Or.inr (Or.inl h.symm)
      · exact Or.inl ⟨w', Or.inl h⟩
      · exact Or.inr (Or.inr h.symm)
      · exact Or.inl ⟨w', Or.inr h⟩

theorem mem_addImport (f : Path) (l : List Path) (g x : Path) :
    x ∈ addImport f l g ↔ x ∈ l ∨ (x = g ∧ g ≠ f) := by
  unfold addImport
  split
  · next h => simp [h]
  · next h =>
    split
    · next h' => constructor
                 · exact Or.inl
                 · rintro (h1 | ⟨rfl, _⟩)
                   · exact h1
                   · exact h'
    · simp [h]

theorem imports_core (s : State Path) (f g : Path) : Imports s f g ↔ ∃ x, core s f = some x ∧ g ∈ x.1 := by
  unfold Imports core
  cases s.chain f <;> simp

theorem refersTo_iff (u : CharClass) (internal : Path) (w : World Path) (tr : List (World Path × Step Path)) (t : QString) (f g : Path) :
    target u w (run u internal tr).known t f = some g ↔ RefersTo u w tr t f g := by
  constructor
  · intro h; exact ⟨_, known_iff u internal tr, h⟩
  · rintro ⟨k, hk, h⟩
    have : k = (run u internal tr).known := by
      funext p
      rw [Bool.eq_iff_iff, hk, known_iff]
    rw [← this]; exact h

omit [DecidableEq Path] in
/-- The first place is unique. -/
theorem firstPresent_unique {env : Include.Env Path} {l : List Path} {a b : Path}
    (ha : Include.FirstPresent env l (.file a)) (hb : Include.FirstPresent env l (.file b)) : a = b := by
  obtain ⟨p1, q1, h1, h2, h3⟩ := ha
  obtain ⟨p2, q2, h4, h5, h6⟩ := hb
  rw [h1, List.append_eq_append_iff] at h4
  rcases h4 with ⟨as, e1, e2⟩ | ⟨as, e1, e2⟩
  · cases as with
    | nil => simp at e2; exact e2.1
    | cons x as =>
      simp only [List.cons_append, List.cons.injEq] at e2
      obtain ⟨rfl, _⟩ := e2
      exact absurd h2 (h6 a (by rw [e1]; simp))
  · cases as with
    | nil => simp at e2; exact e2.1.symm
    | cons x as =>
      simp only [List.cons_append, List.cons.injEq] at e2
      obtain ⟨rfl, _⟩ := e2
      exact absurd h5 (h3 b (by rw [e1]; simp))

omit [DecidableEq Path] in
/-- **C96.**  Which document an include expression refers to (a string token has at least its two
quotes). -/
theorem target_iff (u : CharClass) (w : World Path) (known : Path → Bool) (t : QString) (f g : Path) (hl : 2 ≤ t.length) :
    target u w known t f = some g ↔ Names u w known t f g := by
  obtain ⟨a, name, b, rfl⟩ : ∃ a name b, t = a :: (name ++ [b]) := by
    cases t with
    | nil => simp at hl
    | cons a t =>
      have hne : t ≠ [] := by intro h; subst h; simp at hl
      exact ⟨a, t.dropLast, t.getLast hne, by rw [List.dropLast_concat_getLast]⟩
  have hstr : ((a :: (name ++ [b])).drop 1).take ((a :: (name ++ [b])).length - 2) = name := by simp
  have hsuf : (q! "/").isSuffixOf name = true ↔ ∃ x, name = x ++ q! "/" := by
    rw [List.isSuffixOf_iff_suffix]
    exact ⟨fun ⟨x, h⟩ => ⟨x, h.symm⟩, fun ⟨x, h⟩ => ⟨x, h.symm⟩⟩
  have hN : Names u w known (a :: (name ++ [b])) f g ↔ name ≠ [] ∧ name ≠ q! "." ∧ name ≠ q! ".." ∧ (∀ x, name ≠ x ++ q! "/") ∧
    ((Include.IsRemote u name ∧ g = w.url name) ∨
      (¬ Include.IsRemote u name ∧ Include.FirstPresent (w.env known) (Include.candidates (w.env known) name f) (.file g))) := by
    constructor
    · rintro ⟨a', name', b', he, h⟩
      have he' := (List.cons.inj he).2
      have : name = name' := (List.append_inj' he' rfl).1
      subst this; exact h
    · intro h; exact ⟨a, name, b, rfl, h⟩
  rw [hN]
  unfold target includeForLiteral
  simp only [hstr]
  by_cases hd : name = q! "." ∨ name = q! ".." ∨ (q! "/").isSuffixOf name = true
  · rw [if_pos hd]
    simp only [reduceCtorEq, false_iff]
    rintro ⟨_, h1, h2, h3, _⟩
    rcases hd with h | h | h
    · exact h1 h
    · exact h2 h
    · obtain ⟨x, hx⟩ := hsuf.1 h; exact h3 x hx
  · rw [if_neg hd]
    have hd1 : name ≠ q! "." := fun h => hd (Or.inl h)
    have hd2 : name ≠ q! ".." := fun h => hd (Or.inr (Or.inl h))
    have hd3 : ∀ x, name ≠ x ++ q! "/" := fun x h => hd (Or.inr (Or.inr (hsuf.2 ⟨x, h⟩)))
    by_cases h0 : name = []
    · subst h0
      simp [Include.findIncludeFile]
    · by_cases hr : Include.IsRemote u name
      · rw [Include.include_remote u _ name f h0 hr]
        simp only [Option.some.injEq]
        constructor
        · rintro rfl; exact ⟨h0, hd1, hd2, hd3, Or.inl ⟨hr, rfl⟩⟩
        · rintro ⟨_, _, _, _, ⟨_, h⟩ | ⟨h, _⟩⟩
          · exact h.symm
          · exact absurd hr h
      · have hf := Include.include_first_existing u (w.env known) name f h0 hr
        cases hx : Include.findIncludeFile u (w.env known) name f with
        | nothing =>
          rw [hx] at hf
          simp only [reduceCtorEq, false_iff]
          rintro ⟨_, _, _, _, ⟨h, _⟩ | ⟨_, pre, post, e, hp, _⟩⟩
          · exact hr h
          · exact hf g (by rw [e]; simp) hp
        | remote url => rw [hx] at hf; exact hf.elim
        | file p =>
          rw [hx] at hf
          simp only [Option.some.injEq]
          constructor
          · rintro rfl; exact ⟨h0, hd1, hd2, hd3, Or.inr ⟨hr, hf⟩⟩
          · rintro ⟨_, _, _, _, ⟨h, _⟩ | ⟨_, h⟩⟩
            · exact absurd h hr
            · exact firstPresent_unique hf h

/-- What the head of a schedule does to the imports of a file. -/
theorem imports_step (u : CharClass) (internal : Path) (w : World Path) (e : Step Path) (tr : List (World Path × Step Path)) (f g : Path) :
    Imports (run u internal ((w, e) :: tr)) f g ↔
      (g ≠ f ∧ Known tr g ∧ ((e = .start f ∧ g = internal) ∨ ∃ t, e = .pass1 f t ∧ Known tr f ∧ RefersTo u w tr t f g)) ∨
      (e ≠ .start f ∧ Imports (run u internal tr) f g) := by
  simp only [run]
  by_cases hf : f = e.file
  · subst hf
    cases e with
    | start f =>
      obtain ⟨imp, h1, h2, _⟩ := start_chain internal w (run u internal tr) f
      have : Imports (start internal w (run u internal tr) f) f g ↔ g ∈ imp := by
        unfold Imports; rw [h1]; cases (run u internal tr).chain f <;> simp
      simp only [step, Step.file]
      rw [this, h2, known_iff]
      constructor
      · rintro ⟨rfl, h, h'⟩; exact Or.inl ⟨h, h', Or.inl ⟨trivial, rfl⟩⟩
      · rintro (⟨h, h', (⟨_, h''⟩ | ⟨t, h'', _⟩)⟩ | ⟨h, _⟩)
        · exact ⟨h'', h, h'⟩
        · cases h''
        · exact absurd rfl h
    | pass1 f t =>
      simp only [step, Step.file, pass1]
      cases ht : target u w (run u internal tr).known t f with
      | none =>
        constructor
        · intro h; exact Or.inr ⟨(by simp), h⟩
        · rintro (⟨_, _, (⟨h, _⟩ | ⟨t', h, _, hr⟩)⟩ | ⟨_, h⟩)
          · cases h
          · cases h; rw [← refersTo_iff u internal, ht] at hr; cases hr
          · exact h
      | some g' =>
        dsimp only
        split
        · next cg c hg hc =>
          have hkf : Known tr f := (known_iff u internal tr f).1 (by simp [State.known, hc])
          have hkg : Known tr g' := (known_iff u internal tr g').1 (by simp [State.known, hg])
          have : Imports (⟨put (run u internal tr).chain f (some { c with imports := addImport f c.imports g', all := c.all ++ cg.all }),
              (run u internal tr).job⟩ : State Path) f g ↔ g ∈ addImport f c.imports g' := by
            simp [Imports]
          rw [this, mem_addImport]
          have hi : Imports (run u internal tr) f g ↔ g ∈ c.imports := by simp [Imports, hc]
          rw [hi]
          constructor
          · rintro (h | ⟨rfl, h⟩)
            · exact Or.inr ⟨(by simp), h⟩
            · exact Or.inl ⟨h, hkg, Or.inr ⟨t, rfl, hkf, (refersTo_iff u internal ..).1 ht⟩⟩
          · rintro (⟨h1, _, (⟨h, _⟩ | ⟨t', h, _, hr⟩)⟩ | ⟨_, h⟩)
            · cases h
            · cases h; rw [← refersTo_iff u internal, ht] at hr; cases hr; exact Or.inr ⟨rfl, h1⟩
            · exact Or.inl h
        · next hn =>
          constructor
          · intro h; exact Or.inr ⟨(by simp), h⟩
          · rintro (⟨_, hk, (⟨h, _⟩ | ⟨t', h, hkf, hr⟩)⟩ | ⟨_, h⟩)
            · cases h
            · cases h
              rw [← refersTo_iff u internal, ht] at hr; cases hr
              rw [← known_iff u internal] at hk hkf
              simp only [State.known, Option.isSome_iff_exists] at hk hkf
              obtain ⟨cg, hcg⟩ := hk
              obtain ⟨c, hc⟩ := hkf
              exact absurd hc (hn cg c hcg)
            · exact h
    | pass2 f t =>
      rw [imports_core, imports_core]
      simp only [step, Step.file, pass2_core]
      simp
    | cleanup f =>
      rw [imports_core, imports_core]
      simp only [step, Step.file, cleanup_core]
      simp
    | stamp f r =>
      simp only [step, Step.file, stamp]
      split
      · next c hc => simp [Imports, hc]
      · simp
    | failed f =>
      simp only [step, Step.file, failed]
      split
      · next c hc => simp [Imports, hc]
      · next hc => simp [Imports, hc]
  · rw [imports_core, step_other u internal w _ e f hf, ← imports_core]
    constructor
    · intro h; exact Or.inr ⟨fun he => hf (by rw [he]; rfl), h⟩
    · rintro (⟨_, _, (⟨h, _⟩ | ⟨t, h, _⟩)⟩ | ⟨_, h⟩)
      · exact absurd (by rw [h]; rfl) hf
      · exact absurd (by rw [h]; rfl) hf
      · exact h

/-- **C96.**  Whatever the schedule of the jobs: a file imports exactly the files that, since the
analysis of it last began, an include expression of it referred to when it was visited, as far as
they had been parsed by then, and the file of the built-in functions; never itself. -/
theorem imports_iff (u : CharClass) (internal : Path) (tr : List (World Path × Step Path)) (f g : Path) :
    Imports (run u internal tr) f g ↔
      ∃ later w e earlier, tr = later ++ (w, e) :: earlier ∧ (∀ x ∈ later, x.2 ≠ .start f) ∧
        g ≠ f ∧ Known earlier g ∧
        ((e = .start f ∧ g = internal) ∨ ∃ t, e = .pass1 f t ∧ Known earlier f ∧ RefersTo u w earlier t f g) := by
  induction tr with
  | nil => simp [run, State.empty, Imports]
  | cons x tr ih =>
    obtain ⟨w, e⟩ := x
    rw [imports_step, ih]
    constructor
    · rintro (⟨h1, h2, h3⟩ | ⟨h, later, w', e', earlier, rfl, hl, h'⟩)
      · exact ⟨[], w, e, tr, rfl, (by simp), h1, h2, h3⟩
      · refine ⟨(w, e) :: later, w', e', earlier, rfl, ?_, h'⟩
        intro x hx
        rcases List.mem_cons.1 hx with rfl | hx
        · exact h
        · exact hl x hx
    · rintro ⟨later, w', e', earlier, heq, hl, h'⟩
      cases later with
      | nil => simp only [List.nil_append, List.cons.injEq, Prod.mk.injEq] at heq
               obtain ⟨⟨rfl, rfl⟩, rfl⟩ := heq
               exact Or.inl h'
      | cons y later =>
        simp only [List.cons_append, List.cons.injEq] at heq
        obtain ⟨rfl, rfl⟩ := heq
        exact Or.inr ⟨hl (w, e) List.mem_cons_self, later, w', e', earlier, rfl, fun x hx => hl x (List.mem_cons_of_mem _ hx), h'⟩

/-- **C96.**  No file imports itself, and none is imported twice. -/
theorem imports_nodup (u : CharClass) (internal : Path) (tr : List (World Path × Step Path)) (f : Path) (c : Chain Path)
    (h : (run u internal tr).chain f = some c) : c.imports.Nodup := by
  have key : ∀ tr : List (World Path × Step Path), ∀ x, core (run u internal tr) f = some x → x.1.Nodup := by
    intro tr
    induction tr with
    | nil => intro x h; simp [run, State.empty, core] at h
    | cons y tr ih =>
      obtain ⟨w, e⟩ := y
      intro x hx
      simp only [run] at hx
      by_cases hf : f = e.file
      · cases e with
        | start f' =>
          simp only [Step.file] at hf; subst hf
          obtain ⟨imp, h1, h2, _⟩ := start_chain internal w (run u internal tr) f
          have : x.1 = imp := by
            simp only [step, core] at hx; rw [h1] at hx
            cases hc : (run u internal tr).chain f <;> (rw [hc] at hx; simp at hx; rw [← hx])
          rw [this]
          unfold start at h1
          cases hc : (run u internal tr).chain f <;> rw [hc] at h1 <;> dsimp only at h1
          all_goals
            split at h1
            · split at h1
              · simp [addImport] at h1
                split at h1 <;> (rw [← h1]; simp)
              · simp at h1; simp [h1]
            · simp at h1; simp [h1]
        | pass1 f' t =>
          simp only [Step.file] at hf; subst hf
          simp only [step, pass1] at hx
          split at hx
          · exact ih x hx
          · split at hx
            · next cg c hg hc =>
              simp only [core, put_same, Option.map_some, Option.some.injEq] at hx
              subst hx
              have := ih _ (show core (run u internal tr) f = some _ by simp only [core, hc]; rfl)
              simp only at this ⊢
              unfold addImport
              split
              · exact this
              · split
                · exact this
                · next h1 h2 => rw [List.nodup_append]; simp [this]; intro a ha hx; subst hx; exact h2 ha
            · exact ih x hx
        | pass2 f' t => simp only [step, pass2_core] at hx; exact ih x hx
        | cleanup f' => simp only [step, cleanup_core] at hx; exact ih x hx
        | stamp f' r =>
          simp only [Step.file] at hf; subst hf
          simp only [step, stamp] at hx
          split at hx
          · next c hc =>
            simp only [core, put_same, Option.map_some, Option.some.injEq] at hx
            subst hx
            exact ih (c.imports, c.own, c.all, c.errors) (by simp only [core, hc]; rfl)
          · exact ih x hx
        | failed f' =>
          simp only [Step.file] at hf; subst hf
          simp only [step, failed] at hx
          split at hx
          · next c hc =>
            simp only [core, put_same, Option.map_some, Option.some.injEq] at hx
            subst hx
            exact ih (c.imports, c.own, c.all, c.errors) (by simp only [core, hc]; rfl)
          · simp only [core, put_same, Option.map_some, Option.some.injEq] at hx
            subst hx; simp
      · rw [step_other u internal w _ e f hf] at hx
        exact ih x hx
  exact key tr _ (by simp only [core, h]; rfl)

/-! ### The own revision, under every schedule -/

theorem own_in_all (u : CharClass) (internal : Path) (tr : List (World Path × Step Path)) (f : Path) :
    ∀ x, core (run u internal tr) f = some x → (f, x.2.1) ∈ x.2.2.1 := by
  induction tr with
  | nil => intro x h; simp [run, State.empty, core] at h
  | cons y tr ih =>
    obtain ⟨w, e⟩ := y
    intro x hx
    simp only [run] at hx
    by_cases hf : f = e.file
    · cases e with
      | start f' =>
        simp only [Step.file] at hf; subst hf
        obtain ⟨imp, h1, h2, _⟩ := start_chain internal w (run u internal tr) f
        simp only [step, core] at hx; rw [h1] at hx
        cases hc : (run u internal tr).chain f <;> (rw [hc] at hx; simp at hx; rw [← hx]; simp)
      | pass1 f' t =>
        simp only [Step.file] at hf; subst hf
        simp only [step, pass1] at hx
        split at hx
        · exact ih x hx
        · split at hx
          · next cg c hg hc =>
            simp only [core, put_same, Option.map_some, Option.some.injEq] at hx
            subst hx
            have := ih _ (show core (run u internal tr) f = some _ by simp only [core, hc]; rfl)
            exact List.mem_append_left _ this
          · exact ih x hx
      | pass2 f' t => simp only [step, pass2_core] at hx; exact ih x hx
      | cleanup f' => simp only [step, cleanup_core] at hx; exact ih x hx
      | stamp f' r =>
        simp only [Step.file] at hf; subst hf
        simp only [step, stamp] at hx
        split at hx
        · next c hc =>
          simp only [core, put_same, Option.map_some, Option.some.injEq] at hx
          subst hx
          simp
        · exact ih x hx
      | failed f' =>
        simp only [Step.file] at hf; subst hf
        simp only [step, failed] at hx
        split at hx <;>
          (simp only [core, put_same, Option.map_some, Option.some.injEq] at hx; subst hx; simp)
    · rw [step_other u internal w _ e f hf] at hx
      exact ih x hx

theorem own_kept (u : CharClass) (internal : Path) (w : World Path) (s : State Path) (e : Step Path) (f : Path) (r : Nat)
    (h : ∃ x, core s f = some x ∧ x.2.1 = r) (he : ∀ r', e ≠ .stamp f r') :
    ∃ x, core (step u internal w s e) f = some x ∧ x.2.1 = r := by
  by_cases hf : f = e.file
  · obtain ⟨x, hx, hr⟩ := h
    have hc : ∃ c, s.chain f = some c ∧ c.own = r := by
      simp only [core] at hx
      cases hs : s.chain f with
      | none => rw [hs] at hx; cases hx
      | some c => rw [hs] at hx; simp at hx; refine ⟨c, rfl, ?_⟩; rw [← hr, ← hx]
    obtain ⟨c, hc, hr'⟩ := hc
    cases e with
    | start f' =>
      simp only [Step.file] at hf; subst hf
      obtain ⟨imp, h1, _⟩ := start_chain internal w s f
      rw [hc] at h1
      exact ⟨_, by simp only [step, core, h1]; rfl, hr'⟩
    | pass1 f' t =>
      simp only [Step.file] at hf; subst hf
      simp only [step, pass1]
      split
      · exact ⟨x, hx, hr⟩
      · split
        · next cg c' hg hc' =>
          rw [hc] at hc'; cases hc'
          exact ⟨_, by simp only [core, put_same]; rfl, hr'⟩
        · exact ⟨x, hx, hr⟩
    | pass2 f' t => simp only [step, pass2_core]; exact ⟨x, hx, hr⟩
    | cleanup f' => simp only [step, cleanup_core]; exact ⟨x, hx, hr⟩
    | stamp f' r' => simp only [Step.file] at hf; subst hf; exact absurd rfl (he r')
    | failed f' =>
      simp only [Step.file] at hf; subst hf
      simp only [step, failed, hc]
      exact ⟨_, by simp only [core, put_same]; rfl, hr'⟩
  · rw [step_other u internal w s e f hf]; exact h

/-- **C97.**  Whatever the schedule: a file whose present revision is not the one that was read by
its last analysis is not up to date. -/
theorem change_noticed (u : CharClass) (internal : Path) (later earlier : List (World Path × Step Path)) (w' w : World Path)
    (f : Path) (r : Nat) (hk : Known earlier f) (hl : ∀ x ∈ later, ∀ r', x.2 ≠ .stamp f r') (hw : w.rev f ≠ r) :
    upToDate w (run u internal (later ++ (w', .stamp f r) :: earlier)) f = false := by
  have key : ∃ x, core (run u internal (later ++ (w', .stamp f r) :: earlier)) f = some x ∧ x.2.1 = r := by
    induction later with
    | nil =>
      rw [← known_iff u internal] at hk
      simp only [State.known, Option.isSome_iff_exists] at hk
      obtain ⟨c, hc⟩ := hk
      exact ⟨_, by simp only [List.nil_append, run, step, stamp, hc, core, put_same]; rfl, rfl⟩
    | cons y later ih =>
      obtain ⟨w1, e⟩ := y
      simp only [List.cons_append, run]
      exact own_kept u internal w1 _ e f r (ih fun x hx => hl x (List.mem_cons_of_mem _ hx)) (hl (w1, e) List.mem_cons_self)
  obtain ⟨x, hx, hr⟩ := key
  have hm := own_in_all u internal _ f x hx
  rw [hr] at hm
  unfold upToDate
  simp only [core] at hx
  cases hc : (run u internal (later ++ (w', .stamp f r) :: earlier)).chain f with
  | none => rfl
  | some c =>
    rw [hc] at hx; simp at hx; subst hx
    dsimp only at hm ⊢
    rw [Bool.eq_false_iff]
    intro ha
    rw [List.all_eq_true] at ha
    have := ha _ hm
    simp at this
    exact hw this

/-- **C96.**  Whatever the schedule: at most one declaration stands for a file. -/
theorem marks_le_one (u : CharClass) (internal : Path) (tr : List (World Path × Step Path)) (f : Path) :
    ∀ c, (run u internal tr).chain f = some c → c.marks ≤ 1 := by
  induction tr with
  | nil => intro c h; simp [run, State.empty] at h
  | cons y tr ih =>
    obtain ⟨w, e⟩ := y
    intro c hc
    simp only [run] at hc
    cases e with
    | start f' =>
      obtain ⟨imp, h1, _, h3, _⟩ := start_chain internal w (run u internal tr) f'
      simp only [step] at hc
      by_cases hf : f = f'
      · subst hf
        rw [h1] at hc
        cases hs : (run u internal tr).chain f with
        | none => rw [hs] at hc; simp at hc; rw [← hc]; simp
        | some c' => rw [hs] at hc; simp at hc; rw [← hc]; exact ih c' hs
      · rw [h3 f hf] at hc; exact ih c hc
    | pass1 f' t =>
      simp only [step, pass1] at hc
      split at hc
      · exact ih c hc
      · split at hc
        · next cg c' hg hc' =>
          by_cases hf : f = f'
          · subst hf; simp at hc; rw [← hc]; exact ih c' hc'
          · simp only [put_ne _ _ hf] at hc; exact ih c hc
        · exact ih c hc
    | pass2 f' t =>
      simp only [step, pass2] at hc
      split at hc
      · exact ih c hc
      · next g _ =>
        split at hc
        · exact ih c hc
        · next cg hg =>
          split at hc
          · split at hc <;> exact ih c hc
          · next hm =>
            by_cases hf : f = g
            · subst hf; simp at hc; rw [← hc]; simp; omega
            · simp only [put_ne _ _ hf] at hc; exact ih c hc
    | cleanup f' =>
      simp only [step, cleanup] at hc
      split at hc
      · next c' l hc' hl =>
        by_cases hf : f = f'
        · subst hf; simp at hc; rw [← hc]; dsimp only; split
          · exact ih c' hc'
          · omega
        · simp only [put_ne _ _ hf] at hc; exact ih c hc
      · exact ih c hc
    | stamp f' r =>
      simp only [step, stamp] at hc
      split at hc
      · next c' hc' =>
        by_cases hf : f = f'
        · subst hf; simp at hc; rw [← hc]; exact ih c' hc'
        · simp only [put_ne _ _ hf] at hc; exact ih c hc
      · exact ih c hc
    | failed f' =>
      simp only [step, failed] at hc
      split at hc
      · next c' hc' =>
        by_cases hf : f = f'
        · subst hf; simp at hc; rw [← hc]; exact ih c' hc'
        · simp only [put_ne _ _ hf] at hc; exact ih c hc
      · by_cases hf : f = f'
        · subst hf; simp at hc; rw [← hc]; simp
        · simp only [put_ne _ _ hf] at hc; exact ih c hc

end KPhp.Project

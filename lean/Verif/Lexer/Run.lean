import Verif.Lexer.Kinds
/-! One call of the lexer and runs of calls. -/
namespace KPhp

/-- Invariant of the lexer object between calls. -/
structure LInv (u : CharClass) (c : QString) (s : LState) : Prop where
  wf : Wf s.stack
  inv : s.pos < c.length → SInv u c s.pos s.stack s.ident

/-- The state reached by `n` calls on a fresh lexer, for some `n`. -/
def Reach (u : CharClass) (c : QString) (php : Bool) (s : LState) : Prop :=
  ∃ n os, runN u c n (LState.init php) = some (os, s)

/-- What one call does. -/
inductive StepRel (u : CharClass) (c : QString) (s : LState) : LState → Out → Prop
  | eof : c.length ≤ s.pos → StepRel u c s { s with lines := s.lines ++ [s.pos] } .eof
  | over (r : Res) : s.pos < c.length → Good u c s.pos s.stack s.ident r → r.nxt = c.length + 2 →
      OpenBlockComment c s.pos → StackMove s.stack r.stack →
      StepRel u c s ⟨c.length + 1, r.stack, r.ident, s.halt, s.lines ++ r.nls⟩ .eof
  | halted (r : Res) : s.pos < c.length → Good u c s.pos s.stack s.ident r → r.nxt ≤ c.length + 1 →
      s.halt = 4 → StackMove s.stack r.stack →
      StepRel u c s ⟨r.nxt, r.stack, r.ident, 4, s.lines ++ r.nls⟩ .eof
  | tok (r : Res) : s.pos < c.length → Good u c s.pos s.stack s.ident r → r.nxt ≤ c.length + 1 →
      s.halt ≠ 4 → StackMove s.stack r.stack → StartOk u c s.pos s.stack r →
      StepRel u c s ⟨r.nxt, r.stack, r.ident, haltStep s.halt r.tok, s.lines ++ r.nls⟩
        (.tok r.tok s.pos r.nxt)

section
variable {u : CharClass} {c : QString} {s s' : LState} {o : Out}

theorem LInv.init (u : CharClass) (c : QString) (php : Bool) : LInv u c (LState.init php) := by
  have wf : Wf (LState.init php).stack := by
    cases php
    · exact Wf.base
    · exact Wf.push rfl Wf.base
  refine ⟨wf, fun _ => ⟨wf, ?_, ?_, ?_⟩⟩
  · cases php <;> simp [LState.init, HasDoc]
  · cases php <;> simp [LState.init, HasStr]
  · intro t r h hw
    cases php <;> (simp [LState.init] at h; rw [← h.1] at hw; simp [wantsIdent] at hw)

theorem step_spec (hu : u.Lawful) (hi : LInv u c s) :
    (step u c s = none ∧ YieldHazard u c) ∨
    ∃ s' o, step u c s = some (s', o) ∧ LInv u c s' ∧ StepRel u c s s' o := by
  unfold step
  by_cases hp : s.pos ≥ c.length
  · rw [if_pos hp]
    exact Or.inr ⟨_, _, rfl, ⟨hi.wf, fun h => by have : s.pos < c.length := h; omega⟩, StepRel.eof hp⟩
  · rw [if_neg hp]
    have hlt : s.pos < c.length := by omega
    have hd := dispatch_good hu hlt (hi.inv hlt)
    have hm := dispatch_move (u := u) (c := c) (b := s.pos) (stack := s.stack) (ident := s.ident)
    have hs := dispatch_start (stack := s.stack) (ident := s.ident) hu hlt
    rcases hd with ⟨h1, h2⟩ | ⟨r, h1, h2⟩
    · left; rw [h1]; exact ⟨rfl, _, h2⟩
    · right
      have hmv := hm r h1
      have hst := hs r h1
      rw [h1]
      simp only [Option.bind_eq_bind, Option.bind_some]
      split
      · rename_i hover
        have hb := h2.bound.resolve_left (fun h => by have := h.1; omega)
        have e1 : r.nxt - 1 = c.length + 1 := by omega
        rw [e1]
        exact ⟨_, _, rfl, ⟨h2.inv.wf, fun h => by have : c.length + 1 < c.length := h; omega⟩,
          StepRel.over r hlt h2 hb.1 hb.2.2 hmv⟩
      · rename_i hover
        split
        · rename_i hh
          exact ⟨_, _, rfl, ⟨h2.inv.wf, fun _ => h2.inv⟩, StepRel.halted r hlt h2 (by omega) hh hmv⟩
        · rename_i hh
          exact ⟨_, _, rfl, ⟨h2.inv.wf, fun _ => h2.inv⟩, StepRel.tok r hlt h2 (by omega) hh hmv hst⟩

theorem step_rel (hu : u.Lawful) (hi : LInv u c s) (h : step u c s = some (s', o)) :
    LInv u c s' ∧ StepRel u c s s' o := by
  rcases step_spec hu hi with ⟨h1, _⟩ | ⟨s1, o1, h1, h2, h3⟩
  · rw [h1] at h; simp at h
  · rw [h1] at h
    cases h
    exact ⟨h2, h3⟩

theorem runN_succ {n : Nat} {os : List Out} {sf : LState}
    (h : runN u c (n + 1) s = some (os, sf)) :
    ∃ s1 o os', step u c s = some (s1, o) ∧ runN u c n s1 = some (os', sf) ∧ os = o :: os' := by
  unfold runN at h
  simp only [Option.bind_eq_bind, Option.bind_eq_some_iff] at h
  obtain ⟨⟨s1, o⟩, h1, ⟨os', sf'⟩, h2, h3⟩ := h
  simp at h3
  obtain ⟨h3, rfl⟩ := h3
  exact ⟨s1, o, os', h1, h2, h3.symm⟩

theorem runN_cons {n : Nat} {os : List Out} {s1 sf : LState}
    (h1 : step u c s = some (s1, o)) (h2 : runN u c n s1 = some (os, sf)) :
    runN u c (n + 1) s = some (o :: os, sf) := by
  unfold runN
  simp [h1, h2]

theorem runN_append {m : Nat} : ∀ {n : Nat} {s s1 s2 : LState} {os os' : List Out},
    runN u c n s = some (os, s1) → runN u c m s1 = some (os', s2) →
    runN u c (n + m) s = some (os ++ os', s2)
  | 0, s, s1, s2, os, os', h1, h2 => by
    simp [runN] at h1
    obtain ⟨rfl, rfl⟩ := h1
    simpa using h2
  | n + 1, s, s1, s2, os, os', h1, h2 => by
    obtain ⟨sa, o, osa, a1, a2, rfl⟩ := runN_succ h1
    have := runN_cons a1 (runN_append a2 h2)
    rw [show n + 1 + m = n + m + 1 by omega]
    exact this

theorem runN_inv (hu : u.Lawful) : ∀ {n : Nat} {s sf : LState} {os : List Out},
    LInv u c s → runN u c n s = some (os, sf) → LInv u c sf
  | 0, s, sf, os, hi, h => by simp [runN] at h; rw [← h.2]; exact hi
  | n + 1, s, sf, os, hi, h => by
    obtain ⟨s1, o, os', h1, h2, _⟩ := runN_succ h
    exact runN_inv hu (step_rel hu hi h1).1 h2

theorem Reach.inv (hu : u.Lawful) {php : Bool} (h : Reach u c php s) : LInv u c s := by
  obtain ⟨n, os, h⟩ := h
  exact runN_inv hu (LInv.init u c php) h

theorem Reach.step {php : Bool} (h : Reach u c php s) (h2 : KPhp.step u c s = some (s', o)) :
    Reach u c php s' := by
  obtain ⟨n, os, h⟩ := h
  exact ⟨n + 1, os ++ [o], runN_append h (runN_cons h2 rfl)⟩

/-- `Out.tok` of a triple. -/
def Out.ofTok (x : Tok × Nat × Nat) : Out := .tok x.1 x.2.1 x.2.2

/-- The tokens among the outputs. -/
def tokList (os : List Out) : List (Tok × Nat × Nat) :=
  os.filterMap fun | .tok t b e => some (t, b, e) | .eof => none

/-- The lexer has reached its end: each further call reports end of file. -/
def Done (c : QString) (s : LState) : Prop := c.length ≤ s.pos ∨ s.halt = 4

theorem StepRel.done (h : StepRel u c s s' .eof) : Done c s' := by
  cases h with
  | eof h => exact Or.inl h
  | over r => exact Or.inl (by show c.length ≤ c.length + 1; omega)
  | halted r => exact Or.inr rfl

theorem StepRel.of_done (h : StepRel u c s s' o) (hd : Done c s) : o = .eof := by
  cases h with
  | eof h => rfl
  | over r => rfl
  | halted r => rfl
  | tok r h1 h2 h3 h4 h5 h6 => rcases hd with hd | hd <;> omega

theorem run_done (hu : u.Lawful) : ∀ {n : Nat} {s sf : LState} {os : List Out},
    LInv u c s → Done c s → runN u c n s = some (os, sf) → os = List.replicate n .eof ∧ Done c sf
  | 0, s, sf, os, hi, hd, h => by
    simp [runN] at h; obtain ⟨rfl, rfl⟩ := h; exact ⟨rfl, hd⟩
  | n + 1, s, sf, os, hi, hd, h => by
    obtain ⟨s1, o, os', h1, h2, rfl⟩ := runN_succ h
    obtain ⟨hi1, hr⟩ := step_rel hu hi h1
    have ho := hr.of_done hd
    subst ho
    obtain ⟨rfl, hdf⟩ := run_done hu hi1 hr.done h2
    exact ⟨rfl, hdf⟩

/-- A run is a sequence of tokens followed by end-of-file reports. -/
theorem run_shape (hu : u.Lawful) : ∀ {n : Nat} {s sf : LState} {os : List Out},
    LInv u c s → runN u c n s = some (os, sf) →
    ∃ (toks : List (Tok × Nat × Nat)) (s1 : LState) (m k : Nat), os = toks.map Out.ofTok ++ List.replicate k .eof ∧ n = m + k ∧
      runN u c m s = some (toks.map Out.ofTok, s1) ∧ runN u c k s1 = some (List.replicate k .eof, sf)
  | 0, s, sf, os, hi, h => by
    simp [runN] at h; obtain ⟨rfl, rfl⟩ := h
    exact ⟨[], s, 0, 0, rfl, rfl, rfl, rfl⟩
  | n + 1, s, sf, os, hi, h => by
    obtain ⟨s1, o, os', h1, h2, rfl⟩ := runN_succ h
    obtain ⟨hi1, hr⟩ := step_rel hu hi h1
    cases o with
    | eof =>
      obtain ⟨rfl, _⟩ := run_done hu hi1 hr.done h2
      exact ⟨[], s, 0, n + 1, rfl, by omega, rfl, h⟩
    | tok t b e =>
      obtain ⟨toks, s2, m, k, rfl, rfl, g3, g4⟩ := run_shape hu hi1 h2
      refine ⟨(t, b, e) :: toks, s2, m + 1, k, rfl, by omega, ?_, g4⟩
      exact runN_cons h1 g3

theorem tokList_ofTok (toks : List (Tok × Nat × Nat)) (k : Nat) :
    tokList (toks.map Out.ofTok ++ List.replicate k .eof) = toks := by
  unfold tokList
  rw [List.filterMap_append]
  have h1 : (List.replicate k Out.eof).filterMap
      (fun | .tok t b e => some (t, b, e) | .eof => none) = ([] : List (Tok × Nat × Nat)) := by
    rw [List.filterMap_eq_nil_iff]
    intro a ha
    rw [(List.mem_replicate.1 ha).2]
  rw [h1, List.append_nil, List.filterMap_map]
  induction toks with
  | nil => rfl
  | cons x r ih =>
    rw [List.filterMap_cons]
    simp only [Function.comp, Out.ofTok]
    rw [ih]

/-- Consecutive tokens: the first begins at `a`, each next one begins where the previous one ends, the
last one ends at `z`. -/
def Contiguous (a : Nat) : List (Tok × Nat × Nat) → Nat → Prop
  | [], z => a = z
  | (_, b, e) :: r, z => b = a ∧ b ≤ e ∧ Contiguous e r z

/-- The texts of the tokens. -/
def texts (c : QString) (toks : List (Tok × Nat × Nat)) : List QString :=
  toks.map fun x => slice c x.2.1 x.2.2

theorem Contiguous.le {toks : List (Tok × Nat × Nat)} : ∀ {a z : Nat}, Contiguous a toks z → a ≤ z := by
  induction toks with
  | nil => intro a z h; have : a = z := h; omega
  | cons x r ih =>
    intro a z h
    obtain ⟨h1, h2, h3⟩ := h
    have := ih h3
    omega

theorem Contiguous.flatten {toks : List (Tok × Nat × Nat)} : ∀ {a z : Nat}, Contiguous a toks z →
    (texts c toks).flatten = slice c a z := by
  induction toks with
  | nil => intro a z h; have : a = z := h; subst this; rw [slice_self]; rfl
  | cons x r ih =>
    intro a z h
    obtain ⟨h1, h2, h3⟩ := h
    show slice c x.2.1 x.2.2 ++ (texts c r).flatten = _
    rw [ih h3, h1, slice_append (by omega) h3.le]

theorem run_contiguous (hu : u.Lawful) : ∀ {toks : List (Tok × Nat × Nat)} {n : Nat} {s sf : LState},
    LInv u c s → runN u c n s = some (toks.map Out.ofTok, sf) → Contiguous s.pos toks sf.pos
  | toks, 0, s, sf, hi, h => by
    simp [runN] at h
    obtain ⟨h, rfl⟩ := h
    subst h; rfl
  | toks, n + 1, s, sf, hi, h => by
    obtain ⟨s1, o, os', h1, h2, h3⟩ := runN_succ h
    cases toks with
    | nil => simp at h3
    | cons x r =>
      simp at h3
      obtain ⟨rfl, rfl⟩ := h3
      obtain ⟨hi1, hr⟩ := step_rel hu hi h1
      have ih := run_contiguous hu hi1 h2
      unfold Out.ofTok at hr
      generalize hx : Out.tok x.1 x.2.1 x.2.2 = o at hr
      cases hr with
      | eof => simp at hx
      | over => simp at hx
      | halted => simp at hx
      | tok r hlt hg h4 h5 h6 h7 =>
        simp at hx
        obtain ⟨e1, e2, e3⟩ := hx
        refine ⟨e2, ?_, ?_⟩
        · rw [e2, e3]; exact hg.le
        · rw [e3]; exact ih

end
end KPhp

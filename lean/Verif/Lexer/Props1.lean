import Verif.Lexer.Run
/-!
# Lexer properties C01–C08: runs of the lexer

Every theorem is about `runN u c n (LState.init php)`: `n` successive calls of `nextTokenKind` on a
fresh lexer for the text `c`.
-/
namespace KPhp
variable {u : CharClass} {c : QString} {php : Bool}

/-- The four token kinds of `__halt_compiler ( ) ;`. -/
def haltPattern : List Tok := [.HALT_COMPILER, .LPAREN, .RPAREN, .SEMICOLON]

/-- The token kinds without white space and comments. -/
def significant (toks : List (Tok × Nat × Nat)) : List Tok :=
  (toks.map (·.1)).filter (fun t => !t.isTrivia)

/-- `__halt_compiler ( ) ;` occurs among the tokens, white space and comments allowed between. -/
def HaltSeq (toks : List (Tok × Nat × Nat)) : Prop := haltPattern <:+: significant toks

/-! ### The `__halt_compiler` automaton -/

theorem significant_snoc (toks : List (Tok × Nat × Nat)) (x : Tok × Nat × Nat) :
    significant (toks ++ [x]) = significant toks ++ (if x.1.isTrivia then [] else [x.1]) := by
  unfold significant
  rw [List.map_append, List.filter_append]
  cases h : x.1.isTrivia <;> simp [h]

/-- The automaton value says how much of the pattern the significant tokens end with. -/
structure HaltInv (h : Nat) (l : List Tok) : Prop where
  le : h ≤ 4
  h1 : h = 1 ↔ [Tok.HALT_COMPILER] <:+ l
  h2 : h = 2 ↔ [Tok.HALT_COMPILER, .LPAREN] <:+ l
  h3 : h = 3 ↔ [Tok.HALT_COMPILER, .LPAREN, .RPAREN] <:+ l
  h4 : h = 4 ↔ haltPattern <:+ l

theorem suffix_snoc {α : Type} {p l : List α} {a t : α} : p ++ [a] <:+ l ++ [t] ↔ p <:+ l ∧ a = t := by
  constructor
  · rintro ⟨q, hq⟩
    rw [← List.append_assoc] at hq
    have := List.append_inj' hq rfl
    exact ⟨⟨q, this.1⟩, by simpa using this.2⟩
  · rintro ⟨⟨q, rfl⟩, rfl⟩
    exact ⟨q, by simp⟩

theorem HaltInv.step {h : Nat} {l : List Tok} (hi : HaltInv h l) {t : Tok} (ht : t.isTrivia = false) :
    HaltInv (haltStep h t) (l ++ [t]) := by
  have e1 : [Tok.HALT_COMPILER] <:+ l ++ [t] ↔ t = .HALT_COMPILER := by
    have := suffix_snoc (p := []) (l := l) (a := Tok.HALT_COMPILER) (t := t)
    rw [eq_comm (a := t)]; simp
  have e2 : [Tok.HALT_COMPILER, .LPAREN] <:+ l ++ [t] ↔ h = 1 ∧ t = .LPAREN := by
    have := suffix_snoc (p := [Tok.HALT_COMPILER]) (l := l) (a := Tok.LPAREN) (t := t)
    rw [hi.h1, eq_comm (a := t)]; exact this
  have e3 : [Tok.HALT_COMPILER, .LPAREN, .RPAREN] <:+ l ++ [t] ↔ h = 2 ∧ t = .RPAREN := by
    have := suffix_snoc (p := [Tok.HALT_COMPILER, .LPAREN]) (l := l) (a := Tok.RPAREN) (t := t)
    rw [hi.h2, eq_comm (a := t)]; exact this
  have e4 : haltPattern <:+ l ++ [t] ↔ h = 3 ∧ t = .SEMICOLON := by
    have := suffix_snoc (p := [Tok.HALT_COMPILER, .LPAREN, .RPAREN]) (l := l) (a := Tok.SEMICOLON) (t := t)
    rw [hi.h3, eq_comm (a := t)]; exact this
  have hle := hi.le
  have key : haltStep h t = if t = .HALT_COMPILER then 1 else if h = 1 ∧ t = .LPAREN then 2
      else if h = 2 ∧ t = .RPAREN then 3 else if h = 3 ∧ t = .SEMICOLON then 4 else 0 := by
    unfold haltStep
    rw [ht]
    by_cases h0 : h = 0
    · subst h0; by_cases hh : t = .HALT_COMPILER <;> simp [hh]
    · by_cases hh : t = .HALT_COMPILER
      · subst hh; simp
      · by_cases a1 : t = .LPAREN
        · subst a1; simp [h0]
        · by_cases a2 : t = .RPAREN
          · subst a2; simp [h0]
          · by_cases a3 : t = .SEMICOLON
            · subst a3; simp [h0]
            · simp [a1, a2, a3, hh]
  constructor
  · rw [key]; repeat' split
    all_goals omega
  · rw [e1, key]
    by_cases hh : t = .HALT_COMPILER
    · simp [hh]
    · simp only [hh, if_false, iff_false]; repeat' split
      all_goals omega
  · rw [e2, key]
    by_cases hh : t = .HALT_COMPILER
    · simp [hh]
    · by_cases a : h = 1 ∧ t = .LPAREN
      · simp [a]
      · simp only [hh, a, if_false, iff_false]; repeat' split
        all_goals omega
  · rw [e3, key]
    by_cases hh : t = .HALT_COMPILER
    · simp [hh]
    · by_cases a : h = 2 ∧ t = .RPAREN
      · simp [a]
      · simp only [hh, a, if_false, iff_false]; repeat' split
        all_goals omega
  · rw [e4, key]
    by_cases hh : t = .HALT_COMPILER
    · simp [hh]
    · by_cases a : h = 3 ∧ t = .SEMICOLON
      · simp [a]
      · simp only [hh, a, if_false, iff_false]; repeat' split
        all_goals omega

theorem haltStep_trivia {h : Nat} {t : Tok} (ht : t.isTrivia = true) : haltStep h t = h := by
  unfold haltStep
  have : t ≠ .HALT_COMPILER := by rintro rfl; exact absurd ht (by decide)
  by_cases h0 : h = 0 <;> simp [ht, this, h0]

theorem HaltInv.nil : HaltInv 0 [] := by
  constructor
  · omega
  all_goals simp [haltPattern]

/-- Where the pattern of a token run may sit: only at its very end. -/
theorem halt_run (hu : u.Lawful) : ∀ {post pre : List (Tok × Nat × Nat)} {n : Nat} {s sf : LState},
    LInv u c s → HaltInv s.halt (significant pre) → (s.halt ≠ 4 → ¬ HaltSeq pre) →
    runN u c n s = some (post.map Out.ofTok, sf) →
    HaltInv sf.halt (significant (pre ++ post)) ∧ (sf.halt ≠ 4 → ¬ HaltSeq (pre ++ post))
  | [], pre, 0, s, sf, _, hh, hn, h => by
    simp [runN] at h; subst h; simpa using ⟨hh, hn⟩
  | [], pre, n + 1, s, sf, _, _, _, h => by
    obtain ⟨s1, o, os', _, _, h3⟩ := runN_succ h; simp at h3
  | x :: post, pre, 0, s, sf, _, _, _, h => by simp [runN] at h
  | x :: post, pre, n + 1, s, sf, hi, hh, hn, h => by
    obtain ⟨s1, o, os', h1, h2, h3⟩ := runN_succ h
    simp at h3
    obtain ⟨rfl, rfl⟩ := h3
    obtain ⟨hi1, hr⟩ := step_rel hu hi h1
    have hx : s.halt ≠ 4 ∧ s1.halt = haltStep s.halt x.1 := by
      unfold Out.ofTok at hr
      generalize hx : Out.tok x.1 x.2.1 x.2.2 = o at hr
      cases hr with
      | eof => simp at hx
      | over => simp at hx
      | halted => simp at hx
      | tok r hlt hg h4 h5 h6 h7 => simp at hx; exact ⟨h5, by rw [hx.1]⟩
    obtain ⟨hne, hs1⟩ := hx
    have hpre := hn hne
    have key : HaltInv s1.halt (significant (pre ++ [x])) ∧
        (s1.halt ≠ 4 → ¬ HaltSeq (pre ++ [x])) := by
      unfold HaltSeq
      rw [significant_snoc, hs1]
      cases ht : x.1.isTrivia with
      | true => rw [haltStep_trivia ht]; simpa using ⟨hh, fun _ => hpre⟩
      | false =>
        simp only [Bool.false_eq_true, if_false]
        have hi' := hh.step ht
        refine ⟨hi', fun h4 hinf => ?_⟩
        have h4' := mt hi'.h4.2 h4
        rw [List.infix_concat_iff] at hinf
        rcases hinf with hinf | hinf
        · exact h4' hinf
        · exact hpre hinf
    have := halt_run hu hi1 key.1 key.2 h2
    simpa [List.append_assoc] using this

theorem halt_init (hu : u.Lawful) {toks : List (Tok × Nat × Nat)} {n : Nat} {s : LState}
    (h : runN u c n (LState.init php) = some (toks.map Out.ofTok, s)) :
    s.halt = 4 ↔ HaltSeq toks := by
  have := halt_run hu (pre := []) (LInv.init u c php) (by simpa [LState.init, significant] using HaltInv.nil)
    (by intro _; simp [HaltSeq, significant, haltPattern]) h
  simp only [List.nil_append] at this
  constructor
  · intro h4; exact (this.1.h4.1 h4).isInfix
  · intro hs
    by_cases h4 : s.halt = 4
    · exact h4
    · exact absurd hs (this.2 h4)

/-! ### C01, C02, C06, C07 -/

/-- **C01.** The tokens returned by any number of calls are contiguous starting at offset 0, and their
texts concatenated are a prefix of the source. -/
theorem tokens_tile (hu : u.Lawful) {n : Nat} {os : List Out} {s : LState}
    (h : runN u c n (LState.init php) = some (os, s)) :
    (∃ z, Contiguous 0 (tokList os) z) ∧ (texts c (tokList os)).flatten <+: c := by
  obtain ⟨toks, s1, m, k, rfl, rfl, h1, h2⟩ := run_shape hu (LInv.init u c php) h
  have hc := run_contiguous hu (LInv.init u c php) h1
  rw [tokList_ofTok]
  refine ⟨⟨_, hc⟩, ?_⟩
  rw [hc.flatten]
  unfold slice
  simpa [LState.init] using List.take_prefix _ c

/-- **C06.** The outputs of a run are tokens followed by end-of-file reports only: once end of file has
been reported, every further call reports it. -/
theorem eof_stable (hu : u.Lawful) {n : Nat} {os : List Out} {s : LState}
    (h : runN u c n (LState.init php) = some (os, s)) {i j : Nat} (hij : i ≤ j) (hj : j < n)
    (he : os[i]? = some .eof) : os[j]? = some .eof := by
  obtain ⟨toks, s1, m, k, rfl, rfl, h1, h2⟩ := run_shape hu (LInv.init u c php) h
  have hm : toks.length = m := by
    have : ∀ {n : Nat} {s sf : LState} {os : List Out}, runN u c n s = some (os, sf) → os.length = n := by
      intro n
      induction n with
      | zero => intro s sf os h; simp [runN] at h; rw [h.1]; rfl
      | succ n ih =>
        intro s sf os h
        obtain ⟨s1, o, os', _, g2, rfl⟩ := runN_succ h
        simp [ih g2]
    simpa using this h1
  have hi : m ≤ i := by
    by_cases hlt : i < m
    · rw [List.getElem?_append_left (by simp; omega), List.getElem?_map] at he
      rw [Option.map_eq_some_iff] at he
      obtain ⟨a, _, ha⟩ := he
      simp [Out.ofTok] at ha
    · omega
  rw [List.getElem?_append_right (by simp; omega)]
  rw [List.getElem?_replicate, if_pos (by simp; omega)]

/-- How the first end-of-file report of a run comes about. -/
theorem eof_reason (hu : u.Lawful) {n : Nat} {os : List Out} {s : LState}
    (h : runN u c n (LState.init php) = some (os, s)) (he : Out.eof ∈ os) :
    ∃ z, Contiguous 0 (tokList os) z ∧
      (HaltSeq (tokList os) ∨ c.length ≤ z ∨ OpenBlockComment c z) := by
  obtain ⟨toks, s1, m, k, rfl, rfl, h1, h2⟩ := run_shape hu (LInv.init u c php) h
  rw [tokList_ofTok]
  have hk : k ≠ 0 := by
    rintro rfl
    simp [Out.ofTok] at he
  obtain ⟨k, rfl⟩ : ∃ k', k = k' + 1 := ⟨k - 1, by omega⟩
  obtain ⟨s2, o, os', g1, g2, g3⟩ := runN_succ h2
  rw [List.replicate_succ] at g3
  simp at g3
  obtain ⟨rfl, _⟩ := g3
  have hi1 := runN_inv hu (LInv.init u c php) h1
  refine ⟨_, run_contiguous hu (LInv.init u c php) h1, ?_⟩
  have hr := (step_rel hu hi1 g1).2
  generalize ho : Out.eof = o at hr
  cases hr with
  | eof h => exact Or.inr (Or.inl h)
  | over r _ _ _ hob _ => exact Or.inr (Or.inr hob)
  | halted r _ _ _ h4 _ => exact Or.inl ((halt_init hu h1).1 h4)
  | tok => simp at ho

/-- **C02.** When end of file is reported, `__halt_compiler();` was not used and no block comment is left
open, the concatenated token texts are the whole text. -/
theorem nothing_lost (hu : u.Lawful) {n : Nat} {os : List Out} {s : LState}
    (h : runN u c n (LState.init php) = some (os, s)) (he : Out.eof ∈ os)
    (hhalt : ¬ HaltSeq (tokList os)) (hopen : ∀ b, ¬ OpenBlockComment c b) :
    (texts c (tokList os)).flatten = c := by
  obtain ⟨z, hz, hcase⟩ := eof_reason hu h he
  rcases hcase with hc | hc | hc
  · exact absurd hc hhalt
  · rw [hz.flatten, slice_zero_full hc]
  · exact absurd hc (hopen z)

/-- **C07 (stops).** Once `__halt_compiler ( ) ;` has been returned, each further call reports end of
file. -/
theorem halt_stops (hu : u.Lawful) {n m : Nat} {os os' : List Out} {s s' : LState}
    (h : runN u c n (LState.init php) = some (os, s)) (hh : HaltSeq (tokList os))
    (h' : runN u c m s = some (os', s')) : os' = List.replicate m .eof := by
  obtain ⟨toks, s1, m1, k, rfl, rfl, h1, h2⟩ := run_shape hu (LInv.init u c php) h
  rw [tokList_ofTok] at hh
  have h4 := (halt_init hu h1).2 hh
  have hi1 := runN_inv hu (LInv.init u c php) h1
  obtain ⟨_, hd⟩ := run_done hu hi1 (Or.inr h4) h2
  exact (run_done hu (runN_inv hu hi1 h2) hd h').1

/-- **C07 (only).** When end of file is reported although `__halt_compiler ( ) ;` was not returned, the
tokens reach the end of the text or a block comment that is never closed. -/
theorem stops_only_at_end (hu : u.Lawful) {n : Nat} {os : List Out} {s : LState}
    (h : runN u c n (LState.init php) = some (os, s)) (he : Out.eof ∈ os)
    (hh : ¬ HaltSeq (tokList os)) :
    (texts c (tokList os)).flatten = c ∨
    ∃ z, Contiguous 0 (tokList os) z ∧ OpenBlockComment c z := by
  obtain ⟨z, hz, hcase⟩ := eof_reason hu h he
  rcases hcase with hc | hc | hc
  · exact absurd hc hh
  · left; rw [hz.flatten, slice_zero_full hc]
  · exact Or.inr ⟨z, hz, hc⟩


/-! ### C03, C04 -/

/-- The text contains `{$` followed by a digit. -/
def CurlyDigit (u : CharClass) (c : QString) : Prop :=
  ∃ i, chr c i = c! '{' ∧ chr c (i + 1) = c! '$' ∧ u.isDigit (chr c (i + 2)) = true

/-- **C04 (partial).** Full property: no run of the lexer reads outside the text and its terminator.
That is false (`yield_overread`): after the word `yield` the lexer reads four characters without
looking for the end of the text.  Proved: this is the only way; when no word `yield` (with the white
space after it) comes within three characters of the end, every run is defined. -/
theorem no_overread_partial (hu : u.Lawful) (hy : ¬ YieldHazard u c) (n : Nat) :
    ∃ os s, runN u c n (LState.init php) = some (os, s) := by
  have : ∀ n s, LInv u c s → ∃ os sf, runN u c n s = some (os, sf) := by
    intro n
    induction n with
    | zero => intro s _; exact ⟨_, _, rfl⟩
    | succ n ih =>
      intro s hi
      rcases step_spec hu hi with ⟨_, h⟩ | ⟨s1, o, h1, h2, _⟩
      · exact absurd h hy
      · obtain ⟨os, sf, h3⟩ := ih s1 h2
        exact ⟨_, _, runN_cons h1 h3⟩
  exact this n _ (LInv.init u c php)

/-- Calls left: two per character, one more in the mode after an interpolated variable. -/
def lexMeasure (c : QString) (s : LState) : Nat :=
  2 * (c.length - s.pos) + (if s.stack.head? = some .StrVar then 1 else 0)

theorem measure_step (hd : ¬ CurlyDigit u c) {s s' : LState} {t : Tok} {b e : Nat}
    (h : StepRel u c s s' (.tok t b e)) : lexMeasure c s' < lexMeasure c s := by
  generalize ho : Out.tok t b e = o at h
  cases h with
  | eof => simp at ho
  | over => simp at ho
  | halted => simp at ho
  | tok r hlt hg h4 h5 h6 h7 =>
    unfold lexMeasure
    rcases hg.progress with hp | ⟨_, hp, hq⟩
    · show 2 * (c.length - r.nxt) + (if r.stack.head? = _ then 1 else 0) < _
      split <;> omega
    · rcases hq with ⟨q1, q2⟩ | ⟨_, _, q3, q4, q5⟩
      · show 2 * (c.length - r.nxt) + (if r.stack.head? = _ then 1 else 0) < _
        rw [if_neg q2, if_pos q1]; omega
      · exact absurd ⟨_, q3, q4, q5⟩ hd

/-- **C03 (partial).** Full property: end of file is reported within `2 * length + 1` calls for every
text.  That is false (`lexer_hangs`): a `{$` followed by a digit inside an interpolated string makes
the lexer return empty tokens forever.  Proved: for all texts without `{$digit` (and without the
overread of C04) end of file comes within `2 * length + 1` calls. -/
theorem lexing_terminates_partial (hu : u.Lawful) (hy : ¬ YieldHazard u c) (hd : ¬ CurlyDigit u c) :
    ∃ os s, runN u c (2 * c.length + 1) (LState.init php) = some (os, s) ∧ Out.eof ∈ os := by
  have : ∀ n s, LInv u c s → lexMeasure c s < n →
      ∃ os sf, runN u c n s = some (os, sf) ∧ Out.eof ∈ os := by
    intro n
    induction n with
    | zero => intro s _ h; omega
    | succ n ih =>
      intro s hi hm
      rcases step_spec hu hi with ⟨_, h⟩ | ⟨s1, o, h1, h2, h3⟩
      · exact absurd h hy
      · cases o with
        | eof =>
          have : ∀ n s, LInv u c s → ∃ os sf, runN u c n s = some (os, sf) := by
            intro n
            induction n with
            | zero => intro s _; exact ⟨_, _, rfl⟩
            | succ n ih =>
              intro s hi
              rcases step_spec hu hi with ⟨_, h⟩ | ⟨s1, o, h1, h2, _⟩
              · exact absurd h hy
              · obtain ⟨os, sf, h3⟩ := ih s1 h2
                exact ⟨_, _, runN_cons h1 h3⟩
          obtain ⟨os, sf, h4⟩ := this n s1 h2
          exact ⟨_, _, runN_cons h1 h4, by simp⟩
        | tok t b e =>
          have := measure_step hd h3
          obtain ⟨os, sf, h4, h5⟩ := ih s1 h2 (by omega)
          exact ⟨_, _, runN_cons h1 h4, by simp [h5]⟩
  refine this _ _ (LInv.init u c php) ?_
  unfold lexMeasure
  cases php <;> simp [LState.init]

/-- The text `yield;` (as PHP code): lexing it reads behind the terminator. -/
theorem yield_overread : runN asciiClass (q! "yield;") 1 (LState.init true) = none := by decide +kernel

/-- The text `"$a{$1"` (as PHP code): the lexer returns tokens forever. -/
theorem lexer_hangs (n : Nat) :
    ∃ os s, runN asciiClass (q! "\"$a{$1\"") n (LState.init true) = some (os, s) ∧ Out.eof ∉ os := by
  have fix : ∀ n, ∃ os, runN asciiClass (q! "\"$a{$1\"") n
      ⟨3, [.Str, .Default, .Html, .Error], [], 0, []⟩ =
        some (os, ⟨3, [.Str, .Default, .Html, .Error], [], 0, []⟩) ∧ Out.eof ∉ os := by
    intro n
    induction n with
    | zero => exact ⟨[], rfl, by simp⟩
    | succ n ih =>
      obtain ⟨os, h1, h2⟩ := ih
      have h0 : step asciiClass (q! "\"$a{$1\"") ⟨3, [.Str, .Default, .Html, .Error], [], 0, []⟩ =
        some (⟨3, [.Str, .Default, .Html, .Error], [], 0, []⟩,
          .tok .ENCAPSED_AND_WHITESPACE 3 3) := by decide +kernel
      exact ⟨_, runN_cons h0 h1, by simp [h2]⟩
  have h3 : runN asciiClass (q! "\"$a{$1\"") 3 (LState.init true) =
      some ([.tok .DOUBLE_QUOTE 0 1, .tok .VARIABLE 1 3, .tok .ENCAPSED_AND_WHITESPACE 3 3],
        ⟨3, [.Str, .Default, .Html, .Error], [], 0, []⟩) := by decide +kernel
  match n with
  | 0 => exact ⟨[], _, rfl, by simp⟩
  | 1 => exact ⟨[.tok .DOUBLE_QUOTE 0 1], _, rfl, by simp⟩
  | 2 => exact ⟨[.tok .DOUBLE_QUOTE 0 1, .tok .VARIABLE 1 3], _, rfl, by simp⟩
  | n + 3 =>
    obtain ⟨os, h1, h2⟩ := fix n
    have := runN_append h3 h1
    rw [Nat.add_comm] at this
    exact ⟨_, _, this, by simp [h2]⟩

/-- A text meeting the hypotheses of C03 and C04 although it contains `yield` and `{$x`. -/
example : ¬ CurlyDigit asciiClass (q! "yield 1; \"{$x}\";") := by
  rintro ⟨i, h1, h2, h3⟩
  have hi : i < 16 := lt_of_chr_eq h1 (by decide)
  have : ∀ i < 16, ¬ (chr (q! "yield 1; \"{$x}\";") i = 123 ∧
      chr (q! "yield 1; \"{$x}\";") (i + 1) = 36 ∧
      asciiClass.isDigit (chr (q! "yield 1; \"{$x}\";") (i + 2)) = true) := by decide
  exact this i hi ⟨h1, h2, h3⟩

example : ¬ YieldHazard asciiClass (q! "yield 1; \"{$x}\";") := by
  rintro ⟨b, e, p, hw, hce, h1, h2, hall, h3⟩
  have hel : e ≤ 16 := hw.inText
  have hbe := hw.nonempty
  have : ∀ b < 16, ∀ e < 17, ciEq asciiClass (slice (q! "yield 1; \"{$x}\";") b e) (q! "yield") = true →
      e = 5 := by decide +kernel
  have he := this b (by omega) e (by omega) hce
  subst he
  by_cases hp : p ≤ 6
  · have : (16 : Nat) < p + 3 := h3
    omega
  · have := hall 6 (by omega) (by omega)
    exact absurd this (by decide)

/-! ### C05 -/

/-- **C05 (nesting).** Between any two calls the mode stack is well nested on top of the HTML mode; in
particular it never underflows and the error mode is never the current one. -/
theorem modes_wf (hu : u.Lawful) {s : LState} (h : Reach u c php s) :
    Wf s.stack ∧ s.stack.head? ≠ some .Error := by
  have := (h.inv hu).wf
  refine ⟨this, ?_⟩
  generalize s.stack = l at this
  cases this with
  | base => simp
  | push a b => rename_i t s r; revert a; cases t <;> simp [under]

theorem StepRel.move {s s' : LState} {o : Out} (h : StepRel u c s s' o) :
    StackMove s.stack s'.stack := by
  cases h with
  | eof => exact StackMove.refl _
  | over r _ _ _ _ h => exact h
  | halted r _ _ _ _ h => exact h
  | tok r _ _ _ _ h _ => exact h

/-- A move from a stack above `l` stays above `l` or uncovers a part of `l`. -/
theorem StackMove.above {a b l : List St} (h : StackMove a b) (ha : ∃ t p, a = t :: (p ++ l)) :
    (∃ t p, b = t :: (p ++ l)) ∨ b <:+ l := by
  obtain ⟨t, p, rfl⟩ := ha
  generalize hx : t :: (p ++ l) = x at h
  cases h with
  | enter t' l' => left; exact ⟨t', t :: p, by rw [← hx]; rfl⟩
  | varname l' =>
    simp at hx
    left; exact ⟨_, p, by rw [hx.2]⟩
  | leave pre l' =>
    by_cases hle : b.length ≤ l.length
    · right
      have h1 : b <:+ t :: (p ++ l) := ⟨pre, hx.symm⟩
      have h2 : l <:+ t :: (p ++ l) := ⟨t :: p, rfl⟩
      exact List.suffix_of_suffix_length_le h1 h2 hle
    · left
      have h1 : b <:+ t :: (p ++ l) := ⟨pre, hx.symm⟩
      have h2 : l <:+ t :: (p ++ l) := ⟨t :: p, rfl⟩
      obtain ⟨q, hq⟩ := List.suffix_of_suffix_length_le h2 h1 (by omega)
      cases q with
      | nil => simp at hq; rw [hq] at hle; omega
      | cons t' q => exact ⟨t', q, hq.symm⟩

/-- **C05 (return).** Suppose a call enters a mode (the stack gets deeper), and after `n` further calls
the stack is for the first time no deeper than before.  Then the modes left over are modes that were
already active before, unchanged, in their old order; if the depth is the same, exactly the old modes
are active again. -/
theorem mode_returns (hu : u.Lawful) {s s1 sf : LState} {o : Out} {n : Nat} {os : List Out}
    (hr : Reach u c php s) (h1 : step u c s = some (s1, o)) (hn : 0 < n)
    (hdeep : ∀ m < n, ∀ os' sm, runN u c m s1 = some (os', sm) → s.stack.length < sm.stack.length)
    (h2 : runN u c n s1 = some (os, sf)) (hback : sf.stack.length ≤ s.stack.length) :
    sf.stack <:+ s.stack ∧ (sf.stack.length = s.stack.length → sf.stack = s.stack) := by
  have key : ∀ n s1 sf os, LInv u c s1 → (∃ t p, s1.stack = t :: (p ++ s.stack)) →
      (∀ m < n, ∀ os' sm, runN u c m s1 = some (os', sm) → s.stack.length < sm.stack.length) →
      runN u c n s1 = some (os, sf) → sf.stack.length ≤ s.stack.length → sf.stack <:+ s.stack := by
    intro n
    induction n with
    | zero =>
      intro s1 sf os _ ha _ h2 hb
      simp [runN] at h2
      rw [← h2.2] at hb
      obtain ⟨t, p, hp⟩ := ha
      rw [hp] at hb; simp at hb; omega
    | succ n ih =>
      intro s1 sf os hi ha hd h2 hb
      obtain ⟨s2, o, os', g1, g2, rfl⟩ := runN_succ h2
      obtain ⟨hi2, hrel⟩ := step_rel hu hi g1
      rcases hrel.move.above ha with h | h
      · refine ih s2 sf os' hi2 h ?_ g2 hb
        intro m hm os'' sm hrun
        exact hd (m + 1) (by omega) _ _ (runN_cons g1 hrun)
      · cases n with
        | zero => simp [runN] at g2; rw [← g2.2]; exact h
        | succ n =>
          have := hd 1 (by omega) _ _ (runN_cons g1 rfl)
          have := h.length_le
          omega
  obtain ⟨hi1, hrel⟩ := step_rel hu (hr.inv hu) h1
  have hsuf : sf.stack <:+ s.stack := by
    cases n with
    | zero => omega
    | succ n =>
      have hlong := hdeep 0 (by omega) _ _ rfl
      refine key _ s1 sf os hi1 ?_ hdeep h2 hback
      have hm := hrel.move
      generalize s.stack = a at hm hlong
      generalize s1.stack = b at hm hlong
      cases hm with
      | leave pre l => simp at hlong; omega
      | enter t l => exact ⟨t, [], rfl⟩
      | varname l => simp at hlong
  exact ⟨hsuf, fun h => hsuf.eq_of_length h⟩


/-! ### C08 -/

/-- **C08 (partial).** Full property: the line table holds exactly the offsets of the line breaks inside
the tokens returned so far.  That is false for casts, `yield from` and unterminated double-quoted
literals (`cast_line_break_lost`, `yield_line_break_lost`, `quote_line_break_shifted`).  Proved: it holds
whenever no token of these kinds with a line break inside was returned. -/
theorem line_table_partial (hu : u.Lawful) {toks : List (Tok × Nat × Nat)} {n : Nat} {s : LState}
    (h : runN u c n (LState.init php) = some (toks.map Out.ofTok, s))
    (hx : ∀ x ∈ toks, ¬ NlExempt c x.2.1 x.2.2 x.1) :
    Contiguous 0 toks s.pos ∧ s.lines = nlsIn c 0 s.pos := by
  refine ⟨run_contiguous hu (LInv.init u c php) h, ?_⟩
  have key : ∀ (toks : List (Tok × Nat × Nat)) n s sf, LInv u c s →
      (∀ x ∈ toks, ¬ NlExempt c x.2.1 x.2.2 x.1) →
      runN u c n s = some (toks.map Out.ofTok, sf) → s.lines = nlsIn c 0 s.pos →
      sf.lines = nlsIn c 0 sf.pos := by
    intro toks
    induction toks with
    | nil =>
      intro n s sf _ _ h hl
      cases n with
      | zero => simp [runN] at h; rw [← h]; exact hl
      | succ n => obtain ⟨_, _, _, _, _, h3⟩ := runN_succ h; simp at h3
    | cons x r ih =>
      intro n s sf hi hx h hl
      cases n with
      | zero => simp [runN] at h
      | succ n =>
        obtain ⟨s1, o, os', h1, h2, h3⟩ := runN_succ h
        simp at h3
        obtain ⟨rfl, rfl⟩ := h3
        obtain ⟨hi1, hr⟩ := step_rel hu hi h1
        refine ih n s1 sf hi1 (fun y hy => hx y (by simp [hy])) h2 ?_
        unfold Out.ofTok at hr
        generalize hox : Out.tok x.1 x.2.1 x.2.2 = o at hr
        cases hr with
        | eof => simp at hox
        | over => simp at hox
        | halted => simp at hox
        | tok q hlt hg h4 h5 h6 h7 =>
          simp at hox
          have hne := hx x (by simp)
          rw [hox.1, hox.2.1, hox.2.2] at hne
          show s.lines ++ q.nls = nlsIn c 0 q.nxt
          rw [hl, hg.nls.eq hne, nlsIn_append (Nat.zero_le _) hg.le]
  exact key toks n _ s (LInv.init u c php) hx h (by cases php <;> rfl)

/-- The line table that belongs to a list of tokens: for each token, in order, what `NlRecorded` says. -/
def TableOf (c : QString) : List (Tok × Nat × Nat) → List Nat → Prop
  | [], l => l = []
  | x :: r, l => ∃ l1 l2, l = l1 ++ l2 ∧ NlRecorded c x.2.1 x.2.2 x.1 l1 ∧ TableOf c r l2

/-- **C08 (the table, exactly).** For every text and number of tokens, the line table holds, token by
token, the offsets `NlRecorded` describes: no entry for the line breaks in casts and `yield from`, one
entry at the character before each line break in an unterminated double-quoted literal, and one entry
at each line break in every other token. -/
theorem line_table_exact (hu : u.Lawful) {toks : List (Tok × Nat × Nat)} {n : Nat} {s : LState}
    (h : runN u c n (LState.init php) = some (toks.map Out.ofTok, s)) : TableOf c toks s.lines := by
  have key : ∀ (toks : List (Tok × Nat × Nat)) n s sf, LInv u c s →
      runN u c n s = some (toks.map Out.ofTok, sf) → ∃ l, sf.lines = s.lines ++ l ∧ TableOf c toks l := by
    intro toks
    induction toks with
    | nil =>
      intro n s sf _ h
      cases n with
      | zero => simp [runN] at h; exact ⟨[], by rw [← h]; simp, rfl⟩
      | succ n => obtain ⟨_, _, _, _, _, h3⟩ := runN_succ h; simp at h3
    | cons x r ih =>
      intro n s sf hi h
      cases n with
      | zero => simp [runN] at h
      | succ n =>
        obtain ⟨s1, o, os', h1, h2, h3⟩ := runN_succ h
        simp at h3
        obtain ⟨rfl, rfl⟩ := h3
        obtain ⟨hi1, hr⟩ := step_rel hu hi h1
        obtain ⟨l, hl, ht⟩ := ih n s1 sf hi1 h2
        unfold Out.ofTok at hr
        generalize hox : Out.tok x.1 x.2.1 x.2.2 = o at hr
        cases hr with
        | eof => simp at hox
        | over => simp at hox
        | halted => simp at hox
        | tok q hlt hg h4 h5 h6 h7 =>
          simp at hox
          refine ⟨q.nls ++ l, ?_, q.nls, l, rfl, ?_, ht⟩
          · rw [hl]; simp
          · have := hg.nls
            rwa [← hox.1, ← hox.2.1, ← hox.2.2] at this
  obtain ⟨l, hl, ht⟩ := key toks n _ s (LInv.init u c php) h
  have h0 : (LState.init php).lines = [] := by cases php <;> rfl
  rw [h0] at hl
  rw [hl]; exact ht

theorem nlRecorded_length {b e : Nat} {t : Tok} {l : List Nat} (h : NlRecorded c b e t l) :
    l.length ≤ (nlsIn c b e).length := by
  by_cases h1 : t.isCast = true ∨ t = .YIELD_FROM
  · rw [h.lost h1]; simp
  · by_cases h2 : t = .CONSTANT_ENCAPSED_STRING ∧ UnclosedLiteral c (c! '"') b e
    · rw [h.shifted h2.1 h2.2]; simp
    · rw [h.exact_ h1 h2]; exact Nat.le_refl _

theorem nlRecorded_ne {b e : Nat} {t : Tok} {l : List Nat} (h : NlRecorded c b e t l)
    (hx : NlExempt c b e t) : l ≠ nlsIn c b e := by
  intro he
  obtain ⟨hk, k, h1, h2, h3⟩ := hx
  have hm : k ∈ nlsIn c b e := mem_nlsIn.2 ⟨h1, h2, h3⟩
  have lost : t.isCast = true ∨ t = .YIELD_FROM → False := fun hl => by
    rw [← he, h.lost hl] at hm; simp at hm
  rcases hk with hk | hk | ⟨hk, hun⟩
  · exact lost (Or.inl hk)
  · exact lost (Or.inr hk)
  · have hs := h.shifted hk hun
    rw [he] at hs
    cases hl : nlsIn c b e with
    | nil => rw [hl] at hm; simp at hm
    | cons y r =>
      rw [hl, List.map_cons] at hs
      have h0 : y = y - 1 := (List.cons.inj hs).1
      have hy : y ∈ nlsIn c b e := by rw [hl]; simp
      obtain ⟨g1, g2, g3⟩ := mem_nlsIn.1 hy
      have : y = b := by omega
      rw [this, hun.open_] at g3
      simp at g3

theorem contiguous_le : ∀ {toks : List (Tok × Nat × Nat)} {a z : Nat}, Contiguous a toks z → a ≤ z
  | [], _, _, h => Nat.le_of_eq h
  | _ :: _, _, _, h => by
    have := contiguous_le h.2.2
    have h1 := h.1
    have h2 := h.2.1
    omega

theorem tableOf_eq : ∀ {toks : List (Tok × Nat × Nat)} {l : List Nat} {a z : Nat}, TableOf c toks l →
    Contiguous a toks z → l.length ≤ (nlsIn c a z).length ∧
      (l = nlsIn c a z → ∀ x ∈ toks, ¬ NlExempt c x.2.1 x.2.2 x.1)
  | [], l, a, z, h, _ => by
    have : l = [] := h
    subst this
    simp
  | (t, b, e) :: r, l, a, z, h, hc => by
    obtain ⟨l1, l2, rfl, h1, h2⟩ := h
    obtain ⟨rfl, hle, hr⟩ := hc
    obtain ⟨i1, i2⟩ := tableOf_eq h2 hr
    have n1 : l1.length ≤ (nlsIn c b e).length := nlRecorded_length h1
    have hz : e ≤ z := contiguous_le hr
    rw [nlsIn_append hle hz]
    refine ⟨by simp only [List.length_append]; omega, fun he => ?_⟩
    have hlen := congrArg List.length he
    simp only [List.length_append] at hlen
    obtain ⟨e1, e2⟩ := List.append_inj he (by omega)
    intro y hy
    rcases List.mem_cons.1 hy with rfl | hy
    · exact fun hx => nlRecorded_ne h1 hx e1
    · exact i2 e2 y hy

/-- **C08 (when the table is right).** The line table holds exactly the offsets of the line breaks inside
the tokens returned so far if and only if none of these tokens is a cast or `yield from` with a line
break inside, or an unterminated double-quoted literal with a line break inside. -/
theorem line_table_iff (hu : u.Lawful) {toks : List (Tok × Nat × Nat)} {n : Nat} {s : LState}
    (h : runN u c n (LState.init php) = some (toks.map Out.ofTok, s)) :
    s.lines = nlsIn c 0 s.pos ↔ ∀ x ∈ toks, ¬ NlExempt c x.2.1 x.2.2 x.1 :=
  ⟨(tableOf_eq (line_table_exact hu h) (run_contiguous hu (LInv.init u c php) h)).2,
    fun hx => (line_table_partial hu h hx).2⟩

/-- `(⏎int)` as PHP code: a cast containing a line break, which is not recorded. -/
theorem cast_line_break_lost : ∃ s, runN asciiClass [40, 10, 105, 110, 116, 41] 1 (LState.init true) =
    some ([.tok .INT_CAST 0 6], s) ∧ s.lines = [] ∧ nlsIn [40, 10, 105, 110, 116, 41] 0 6 = [1] :=
  ⟨_, rfl, by decide⟩

/-- `yield⏎from x` as PHP code: the line break inside the token is not recorded. -/
theorem yield_line_break_lost : ∃ s, runN asciiClass
      (q! "yield" ++ [10] ++ q! "from x") 1 (LState.init true) =
    some ([.tok .YIELD_FROM 0 10], s) ∧ s.lines = [] ∧
      nlsIn (q! "yield" ++ [10] ++ q! "from x") 0 10 = [5] :=
  ⟨_, rfl, by decide⟩

/-- `"⏎` as PHP code: the line break inside the unterminated literal (offset 1) is recorded one
character too early. -/
theorem quote_line_break_shifted : ∃ s, runN asciiClass [34, 10, 97] 1 (LState.init true) =
    some ([.tok .CONSTANT_ENCAPSED_STRING 0 3], s) ∧ s.lines = [0] ∧ nlsIn [34, 10, 97] 0 3 = [1] :=
  ⟨_, rfl, by decide⟩

/-- The entries the line table gets at end of file lie at or behind the end of the text. -/
theorem lines_after_eof (hu : u.Lawful) : ∀ {k : Nat} {s sf : LState} {os : List Out},
    LInv u c s → c.length ≤ s.pos → runN u c k s = some (os, sf) →
    sf.lines.filter (· < c.length) = s.lines.filter (· < c.length)
  | 0, s, sf, os, _, _, h => by simp [runN] at h; rw [h.2]
  | k + 1, s, sf, os, hi, hp, h => by
    obtain ⟨s1, o, os', h1, h2, _⟩ := runN_succ h
    obtain ⟨hi1, hr⟩ := step_rel hu hi h1
    cases hr with
    | eof h =>
      have := lines_after_eof hu hi1 h h2
      rw [this]
      show (s.lines ++ [s.pos]).filter _ = _
      rw [List.filter_append]
      have : ¬ s.pos < c.length := by omega
      simp [this]
    | over r h => omega
    | halted r h => omega
    | tok r h => omega

/-- **C08 (at end of file, partial).** Same restriction: when the whole text has been tokenised, the
entries of the line table inside the text are exactly the line breaks of the text. -/
theorem line_table_complete_partial (hu : u.Lawful) {n : Nat} {os : List Out} {s : LState}
    (h : runN u c n (LState.init php) = some (os, s)) (he : Out.eof ∈ os)
    (hhalt : ¬ HaltSeq (tokList os)) (hopen : ∀ b, ¬ OpenBlockComment c b)
    (hx : ∀ x ∈ tokList os, ¬ NlExempt c x.2.1 x.2.2 x.1) :
    s.lines.filter (· < c.length) = nlsIn c 0 c.length := by
  obtain ⟨toks, s1, m, k, rfl, rfl, h1, h2⟩ := run_shape hu (LInv.init u c php) h
  obtain ⟨z, hz, hcase⟩ := eof_reason hu h he
  rw [tokList_ofTok] at hx hhalt hz hcase
  have hz1 := run_contiguous hu (LInv.init u c php) h1
  have : ∀ {toks : List (Tok × Nat × Nat)} {a z z' : Nat}, Contiguous a toks z → Contiguous a toks z' →
      z = z' := by
    intro toks
    induction toks with
    | nil => intro a z z' h h'; exact (show a = z from h).symm.trans h'
    | cons x r ih => intro a z z' h h'; exact ih h.2.2 h'.2.2
  have hzz : z = s1.pos := this hz hz1
  have hpos : c.length ≤ s1.pos := by
    rcases hcase with hc | hc | hc
    · exact absurd hc hhalt
    · omega
    · exact absurd hc (hopen z)
  rw [lines_after_eof hu (runN_inv hu (LInv.init u c php) h1) hpos h2,
    (line_table_partial hu h1 hx).2, nlsIn_clip (Nat.zero_le _) hpos, List.filter_eq_self]
  intro a ha
  have := (mem_nlsIn.1 ha).2.1
  simpa using this

/-! ### Concrete runs meeting the hypotheses -/

/-- A run with HTML, two line breaks and code up to end of file: C01, C02, C06, C08. -/
example : ∃ s, runN asciiClass (q! "a<?php" ++ [10] ++ q! "$b;" ++ [10]) 6 (LState.init false) =
    some ([.tok .INLINE_HTML 0 1, .tok .OPEN_TAG 1 7, .tok .VARIABLE 7 9, .tok .SEMICOLON 9 10,
      .tok .WHITESPACE 10 11, .eof], s) ∧ s.lines.filter (· < 11) = [6, 10] :=
  ⟨_, rfl, by decide⟩

/-- A run containing `__halt_compiler ( ) ;` with a comment inside, followed by more text: C07. -/
example : ∃ os s, runN asciiClass (q! "__halt_compiler/**/();x") 7 (LState.init true) = some (os, s) ∧
    HaltSeq (tokList os) ∧ Out.eof ∈ os := by
  refine ⟨_, _, rfl, ⟨[], [], ?_⟩, ?_⟩
  · rfl
  · decide

/-- Entering and leaving an interpolated string: C05. -/
example : ∃ s s1 sf os, runN asciiClass (q! "\"$a\";") 0 (LState.init true) = some ([], s) ∧
    step asciiClass (q! "\"$a\";") s = some (s1, .tok .DOUBLE_QUOTE 0 1) ∧
    runN asciiClass (q! "\"$a\";") 2 s1 = some (os, sf) ∧
    s.stack.length < s1.stack.length ∧ sf.stack.length = s.stack.length :=
  ⟨_, _, _, _, rfl, rfl, rfl, by decide, by decide⟩

end KPhp

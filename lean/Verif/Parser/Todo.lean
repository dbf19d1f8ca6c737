import Verif.Parser.Tokenize
/-!
# To-do notes in comments (C78)

Models `Parser::setTodoMarkers`, `Parser::extractTodosFromComment` (parser/php.g:1248-1282) and the check of `reportProblem` (parser/php.g:1290-1299) with the part of
`Parser::tokenize` that calls them (parser/php.g:1216-1222).

The regular expression `^(?:[/\*\s]*)(.*(?:A|B|…).*?)(?:[/\*\s]*)$` with `MultilineOption` is matched by backtracking as PCRE does: greedy and lazy repetitions try their lengths in that order
(`greedy`, `lzy`).  Trusted: `\s` is ASCII white space (no Unicode properties are asked for), `.` is everything but a line feed, `^` matches at the beginning and behind a line feed that is not the last
character, `$` at the end and before a line feed; `globalMatch` goes on at the end of a match.
-/
namespace KPhp.Todo

/-- `[/\*\s]` -/
def isDeco (c : QChar) : Bool := c == c! '/' || c == c! '*' || asciiSpace c
/-- `.` -/
def isDot (c : QChar) : Bool := c != c! '\n'

/-- How many characters of this kind follow. -/
def run (P : QChar → Bool) (t : QString) (p : Nat) : Nat := ((t.drop p).takeWhile P).length

/-- `^` -/
def bol (t : QString) (p : Nat) : Bool := p == 0 || (t[p - 1]? == some (c! '\n') && p < t.length)
/-- `$` -/
def eol (t : QString) (p : Nat) : Bool := p == t.length || t[p]? == some (c! '\n')

/-- `x*`: the longest first. -/
def greedy {α : Type} (p : Nat) : Nat → (Nat → Option α) → Option α
  | 0, f => f p
  | n + 1, f => (f (p + (n + 1))).or (greedy p n f)

/-- `x*?`: the shortest first. -/
def lzy {α : Type} (p : Nat) : Nat → (Nat → Option α) → Option α
  | 0, f => f p
  | n + 1, f => (f p).or (lzy (p + 1) n f)

/-- The regular expression at one position (php.g:1269-1282): beginning and end of group 1, end of the match.  For no markers the alternatives are one empty word. -/
def matchAt (ms : List QString) (t : QString) (p : Nat) : Option (Nat × Nat × Nat) :=
  if bol t p then
    greedy p (run isDeco t p) fun q =>
    greedy q (run isDot t q) fun r =>
    (if ms.isEmpty then [[]] else ms).findSome? fun m =>
      if m.isPrefixOf (t.drop r) then
        lzy (r + m.length) (run isDot t (r + m.length)) fun f =>
        greedy f (run isDeco t f) fun g => if eol t g then some (q, f, g) else none
      else none
  else none

/-- `globalMatch` (php.g:1250-1253): group 1 of all matches from a position on. -/
def search (ms : List QString) (t : QString) : Nat → Nat → List (Nat × Nat)
  | 0, _ => []
  | n + 1, p =>
    if p > t.length then []
    else match matchAt ms t p with
      | some (q, f, g) => (q, f) :: search ms t n (if g > p then g else p + 1)
      | none => search ms t n (p + 1)

/-- The notes in a comment. -/
def notes (ms : List QString) (t : QString) : List (Nat × Nat) := search ms t (t.length + 1) 0

/-- The text of the problem, `match.captured(1)` (php.g:1253). -/
def noteText (t : QString) (x : Nat × Nat) : QString := (t.drop x.1).take (x.2 - x.1)

/-! ### Specification -/

/-- Is one of the words in the line? -/
def mentions (ms : List QString) (l : QString) : Bool := ms.any fun m => (List.range (l.length + 1)).any fun i => m.isPrefixOf (l.drop i)

/-- The line without slashes, stars and white space at both ends. -/
def trim (l : QString) : QString := ((l.dropWhile isDeco).reverse.dropWhile isDeco).reverse

/-- The line that begins at the position. -/
def lineAt (t : QString) (s : Nat) : QString := (t.drop s).takeWhile isDot

/-- The note of a line: where its text begins and ends. -/
def lineNote (ms : List QString) (t : QString) (s : Nat) : List (Nat × Nat) :=
  if mentions ms (lineAt t s) then
    [(s + ((lineAt t s).takeWhile isDeco).length, s + ((lineAt t s).takeWhile isDeco).length + (trim (lineAt t s)).length)]
  else []

/-- The beginnings of lines: the beginning of the text, and behind line feeds. -/
def lineStarts (t : QString) : List Nat := (List.range (t.length + 1)).filter fun s => s == 0 || t[s - 1]? == some (c! '\n')

/-- A word that can be a marker: not empty, in one line, no slash, star or white space at its ends. -/
structure Word (m : QString) : Prop where
  nonempty : m ≠ []
  oneLine : c! '\n' ∉ m
  first : ∀ c ∈ m.head?, isDeco c = false
  last : ∀ c ∈ m.getLast?, isDeco c = false

/-! ### Runs and repetitions -/

theorem run_at {P : QChar → Bool} {t : QString} {p i : Nat} (h : i < run P t p) : ∃ c, t[p + i]? = some c ∧ P c = true := by
  unfold run at h
  have h' : i < (t.drop p).length := Nat.lt_of_lt_of_le h (List.Sublist.length_le (List.takeWhile_sublist _))
  refine ⟨(t.drop p)[i], ?_, ?_⟩
  · rw [← List.getElem?_drop, List.getElem?_eq_getElem h']
  · have h1 := List.all_eq_true.1 (List.all_takeWhile (p := P) (l := t.drop p)) _ (List.getElem_mem h)
    have h2 : ((t.drop p).takeWhile P)[i] = (t.drop p)[i] := by
      have := List.takeWhile_prefix (l := t.drop p) P
      exact this.getElem h
    rwa [h2] at h1

theorem run_stop {P : QChar → Bool} {t : QString} {p : Nat} {c : QChar} (h : t[p + run P t p]? = some c) : P c = false := by
  unfold run at h
  rw [← List.getElem?_drop] at h
  have := List.head?_dropWhile_not P (t.drop p)
  have hd : (t.drop p).dropWhile P = (t.drop p).drop ((t.drop p).takeWhile P).length := by
    conv => rhs; arg 2; rw [← List.takeWhile_append_dropWhile (p := P) (l := t.drop p)]
    rw [List.drop_left]
  rw [hd, List.head?_drop, h] at this
  simpa using this

theorem run_le (P : QChar → Bool) (t : QString) (p : Nat) (h : p ≤ t.length) : p + run P t p ≤ t.length := by
  have := List.Sublist.length_le (List.takeWhile_sublist (l := t.drop p) P)
  unfold run
  rw [List.length_drop] at this
  omega

theorem le_run {P : QChar → Bool} {t : QString} {p k : Nat} (h : ∀ i, i < k → ∃ c, t[p + i]? = some c ∧ P c = true) : k ≤ run P t p := by
  rcases Nat.lt_or_ge (run P t p) k with hlt | hge
  · obtain ⟨c, hc, hp⟩ := h _ hlt
    rw [run_stop hc] at hp; cases hp
  · exact hge

variable {α : Type}

theorem greedy_top {p n : Nat} {f : Nat → Option α} {x : α} (h : f (p + n) = some x) : greedy p n f = some x := by
  cases n with
  | zero => simpa [greedy] using h
  | succ n => rw [greedy, h]; rfl

theorem greedy_none {p n : Nat} {f : Nat → Option α} (h : ∀ i, i ≤ n → f (p + i) = none) : greedy p n f = none := by
  induction n with
  | zero => exact h 0 (Nat.le_refl _)
  | succ n ih => rw [greedy, h (n + 1) (Nat.le_refl _), ih (fun i hi => h i (by omega))]; rfl

/-- If all that matches gives the same, and something matches, that is the result. -/
theorem greedy_const {p n : Nat} {f : Nat → Option α} {x : α} (h : ∀ i, i ≤ n → f (p + i) = none ∨ f (p + i) = some x)
    (he : ∃ i, i ≤ n ∧ f (p + i) = some x) : greedy p n f = some x := by
  induction n with
  | zero => obtain ⟨i, hi, hx⟩ := he; have : i = 0 := by omega
            subst this; exact hx
  | succ n ih =>
    rw [greedy]
    rcases h (n + 1) (Nat.le_refl _) with hn | hn
    · rw [hn, Option.none_or]
      apply ih (fun i hi => h i (by omega))
      obtain ⟨i, hi, hx⟩ := he
      refine ⟨i, ?_, hx⟩
      rcases Nat.lt_or_ge i (n + 1) with h' | h'
      · omega
      · have : i = n + 1 := by omega
        subst this; rw [hn] at hx; cases hx
    · rw [hn]; rfl

theorem greedy_some {p n : Nat} {f : Nat → Option α} {x : α} (h : greedy p n f = some x) : ∃ i, i ≤ n ∧ f (p + i) = some x := by
  induction n with
  | zero => exact ⟨0, Nat.le_refl _, h⟩
  | succ n ih =>
    rw [greedy, Option.or_eq_some_iff] at h
    rcases h with h | ⟨-, h⟩
    · exact ⟨n + 1, Nat.le_refl _, h⟩
    · obtain ⟨i, hi, hx⟩ := ih h; exact ⟨i, by omega, hx⟩

theorem greedy_isSome {p n i : Nat} {f : Nat → Option α} (hi : i ≤ n) (h : (f (p + i)).isSome) : ∃ x, greedy p n f = some x := by
  cases hg : greedy p n f with
  | some x => exact ⟨x, rfl⟩
  | none =>
    exfalso
    have key : ∀ n, i ≤ n → greedy p n f = none → False := by
      intro n
      induction n with
      | zero => intro hi' hg'; have : i = 0 := by omega
                subst this; rw [show f (p + 0) = none from hg'] at h; cases h
      | succ n ih =>
        intro hi' hg'
        rw [greedy, Option.or_eq_none_iff] at hg'
        rcases Nat.lt_or_ge i (n + 1) with h' | h'
        · exact ih (by omega) hg'.2
        · have : i = n + 1 := by omega
          subst this; rw [hg'.1] at h; cases h
    exact key n hi hg

theorem lzy_skip {p n k : Nat} {f : Nat → Option α} {x : α} (hk : k ≤ n) (h : ∀ i, i < k → f (p + i) = none) (hx : f (p + k) = some x) : lzy p n f = some x := by
  induction n generalizing p k with
  | zero => have : k = 0 := by omega
            subst this; exact hx
  | succ n ih =>
    rw [lzy]
    cases k with
    | zero => rw [show f p = some x from hx]; rfl
    | succ k =>
      rw [show f p = none from h 0 (by omega), Option.none_or]
      apply ih (k := k) (by omega)
      · intro i hi; rw [Nat.add_right_comm, Nat.add_assoc]; exact h (i + 1) (by omega)
      · rw [Nat.add_right_comm, Nat.add_assoc]; exact hx

/-! ### Lines -/

/-- The character there is a slash, star or white space. -/
def Deco (t : QString) (i : Nat) : Prop := ∃ c, t[i]? = some c ∧ isDeco c = true

theorem nl_deco : isDeco (c! '\n') = true := by decide

theorem occ_iff {m t : QString} {r : Nat} : m.isPrefixOf (t.drop r) = true ↔ ∀ i (h : i < m.length), t[r + i]? = some m[i] := by
  rw [List.isPrefixOf_iff_prefix]
  constructor
  · intro h i hi
    rw [← List.getElem?_drop]
    have hl : i < (t.drop r).length := Nat.lt_of_lt_of_le hi h.length_le
    rw [List.getElem?_eq_getElem hl, ← h.getElem hi]
  · intro h
    induction m generalizing r with
    | nil => exact List.nil_prefix
    | cons c m ih =>
      have h0 := h 0 (by simp)
      simp at h0
      have : t.drop r = c :: t.drop (r + 1) := by
        rw [List.getElem?_eq_some_iff] at h0
        obtain ⟨hl, he⟩ := h0
        rw [List.drop_eq_getElem_cons hl, he]
      rw [this, List.cons_prefix_cons]
      refine ⟨rfl, ih ?_⟩
      intro i hi
      have := h (i + 1) (by simpa using hi)
      simpa [Nat.add_assoc, Nat.add_comm 1 i] using this

theorem line_get {t : QString} {s i : Nat} (h : i < (lineAt t s).length) : t[s + i]? = (lineAt t s)[i]? := by
  have hp := List.takeWhile_prefix (l := t.drop s) isDot
  have hl : i < (t.drop s).length := Nat.lt_of_lt_of_le h hp.length_le
  rw [← List.getElem?_drop, List.getElem?_eq_getElem hl, List.getElem?_eq_getElem h]
  rw [show (lineAt t s)[i] = (t.drop s)[i] from hp.getElem h]

theorem line_length (t : QString) (s : Nat) : (lineAt t s).length = run isDot t s := rfl

theorem line_no_nl {t : QString} {s i : Nat} (h : i < (lineAt t s).length) : t[s + i]? ≠ some (c! '\n') := by
  obtain ⟨c, hc, hd⟩ := run_at (P := isDot) h
  rw [hc]
  intro he
  cases he
  revert hd; decide

/-- The line ends at the end of the text or before a line feed. -/
theorem line_end {t : QString} {s : Nat} (h : s ≤ t.length) : eol t (s + (lineAt t s).length) = true := by
  unfold eol
  cases hx : t[s + (lineAt t s).length]? with
  | none =>
    have := run_le isDot t s h
    rw [List.getElem?_eq_none_iff] at hx
    have : s + (lineAt t s).length = t.length := by rw [line_length] at *; omega
    simp [this]
  | some c =>
    have := run_stop (P := isDot) hx
    have : c = c! '\n' := by simpa [isDot] using this
    simp [this]

/-- The first end of a line at or behind a position. -/
theorem line_le_eol {t : QString} {s g : Nat} (hs : s ≤ g) (hg : eol t g = true) (hgl : g ≤ t.length) : s + (lineAt t s).length ≤ g := by
  rcases Nat.lt_or_ge g (s + (lineAt t s).length) with h | h
  · exfalso
    have h1 := line_no_nl (t := t) (s := s) (i := g - s) (by omega)
    rw [show s + (g - s) = g by omega] at h1
    have h2 := run_le isDot t s (by omega)
    rw [line_length] at h
    unfold eol at hg
    have : g ≠ t.length := by omega
    simp [this, h1] at hg
  · exact h

theorem mentions_iff {ms : List QString} {l : QString} : mentions ms l = true ↔ ∃ m ∈ ms, ∃ i, i ≤ l.length ∧ ∀ j (h : j < m.length), l[i + j]? = some m[j] := by
  unfold mentions
  simp only [List.any_eq_true, List.mem_range, occ_iff]
  constructor
  · rintro ⟨m, hm, i, hi, h⟩; exact ⟨m, hm, i, by omega, h⟩
  · rintro ⟨m, hm, i, hi, h⟩; exact ⟨m, hm, i, by omega, h⟩

theorem trim_split (l : QString) : ∃ b, l = l.takeWhile isDeco ++ trim l ++ b ∧ (∀ c ∈ b, isDeco c = true) ∧ (∀ c ∈ (trim l).head?, isDeco c = false) ∧
    (∀ c ∈ (trim l).getLast?, isDeco c = false) := by
  refine ⟨((l.dropWhile isDeco).reverse.takeWhile isDeco).reverse, ?_, ?_, ?_, ?_⟩
  · unfold trim
    rw [List.append_assoc, ← List.reverse_append, List.takeWhile_append_dropWhile, List.reverse_reverse, List.takeWhile_append_dropWhile]
  · intro c hc
    rw [List.mem_reverse] at hc
    exact List.all_eq_true.1 List.all_takeWhile c hc
  · intro c hc
    have h1 : (trim l) <+: l.dropWhile isDeco := by
      unfold trim
      refine ⟨((l.dropWhile isDeco).reverse.takeWhile isDeco).reverse, ?_⟩
      rw [← List.reverse_append, List.takeWhile_append_dropWhile, List.reverse_reverse]
    have h2 : (l.dropWhile isDeco).head? = some c := by
      obtain ⟨y, hy⟩ := h1
      rw [← hy]
      cases ht : trim l with
      | nil => rw [ht] at hc; simp at hc
      | cons a b => rw [ht] at hc; simpa using hc
    have := List.head?_dropWhile_not isDeco l
    rw [h2] at this
    simpa using this
  · intro c hc
    unfold trim at hc
    rw [List.getLast?_reverse] at hc
    have := List.head?_dropWhile_not isDeco (l.dropWhile isDeco).reverse
    rw [Option.mem_def.1 hc] at this
    simpa using this

/-- A marker stands in the trimmed part of its line. -/
theorem word_in_trim {l m : QString} {i : Nat} (hw : Word m) (h : ∀ j (h : j < m.length), l[i + j]? = some m[j]) :
    (l.takeWhile isDeco).length ≤ i ∧ i + m.length ≤ (l.takeWhile isDeco).length + (trim l).length ∧ trim l ≠ [] := by
  obtain ⟨b, hl, hb, -, -⟩ := trim_split l
  have hpos : 0 < m.length := by
    rcases m with _ | ⟨c, m⟩
    · exact absurd rfl hw.nonempty
    · simp
  have hfirst : isDeco m[0] = false := hw.first _ (by rw [List.head?_eq_getElem?, List.getElem?_eq_getElem hpos]; simp)
  have hlast : isDeco (m[m.length - 1]'(by omega)) = false :=
    hw.last _ (by rw [List.getLast?_eq_getElem?, List.getElem?_eq_getElem (by omega)]; simp)
  have h0 := h 0 hpos
  have h9 := h (m.length - 1) (by omega)
  have a1 : (l.takeWhile isDeco).length ≤ i := by
    rcases Nat.lt_or_ge i (l.takeWhile isDeco).length with hlt | hge
    · exfalso
      rw [Nat.add_zero] at h0
      have hd := List.all_eq_true.1 (List.all_takeWhile (p := isDeco) (l := l)) _ (List.getElem_mem hlt)
      have hp := List.takeWhile_prefix (l := l) isDeco
      have hll : i < l.length := Nat.lt_of_lt_of_le hlt hp.length_le
      rw [hp.getElem hlt] at hd
      rw [List.getElem?_eq_getElem hll, Option.some.injEq] at h0
      rw [h0, hfirst] at hd; cases hd
    · exact hge
  have a2 : i + m.length ≤ (l.takeWhile isDeco).length + (trim l).length := by
    rcases Nat.lt_or_ge (i + (m.length - 1)) ((l.takeWhile isDeco).length + (trim l).length) with hlt | hge
    · omega
    · exfalso
      rw [hl, List.getElem?_append_right (by simp only [List.length_append]; omega)] at h9
      have := hb _ (List.mem_of_getElem? h9)
      rw [hlast] at this; cases this
  refine ⟨a1, a2, ?_⟩
  intro ht
  rw [ht] at a2
  simp at a2; omega

/-- Lines of slashes, stars and white space mention nothing. -/
theorem deco_line {ms : List QString} (hms : ∀ m ∈ ms, Word m) {t : QString} {s : Nat} (h : ∀ i, i < (lineAt t s).length → Deco t (s + i)) :
    mentions ms (lineAt t s) = false := by
  rw [← Bool.not_eq_true]
  intro hm
  obtain ⟨m, hmm, i, hi, ho⟩ := mentions_iff.1 hm
  have hw := hms m hmm
  have hpos : 0 < m.length := by
    rcases m with _ | ⟨c, m⟩
    · exact absurd rfl hw.nonempty
    · simp
  have h0 := ho 0 hpos
  rw [Nat.add_zero] at h0
  have hil : i < (lineAt t s).length := by
    rw [List.getElem?_eq_some_iff] at h0; exact h0.1
  obtain ⟨c, hc, hd⟩ := h i hil
  rw [line_get hil, h0] at hc
  cases hc
  have hfirst : isDeco m[0] = false := hw.first _ (by rw [List.head?_eq_getElem?, List.getElem?_eq_getElem hpos]; simp)
  rw [hfirst] at hd; cases hd

/-! ### The expression -/

theorem matchAt_some {ms : List QString} (hms : ∀ m ∈ ms, Word m) {t : QString} {p s : Nat} (hb : bol t p = true) (hps : p ≤ s) (hsl : s ≤ t.length)
    (hd : ∀ i, p ≤ i → i < s → Deco t i) (hm : mentions ms (lineAt t s) = true) :
    ∃ g, matchAt ms t p = some (s + ((lineAt t s).takeWhile isDeco).length, s + ((lineAt t s).takeWhile isDeco).length + (trim (lineAt t s)).length, g) ∧
      s + (lineAt t s).length ≤ g ∧ g ≤ t.length ∧ eol t g = true ∧
      (∀ i, s + ((lineAt t s).takeWhile isDeco).length + (trim (lineAt t s)).length ≤ i → i < g → Deco t i) ∧ p < g := by
  obtain ⟨b, hl, hbd, hhead, hlast⟩ := trim_split (lineAt t s)
  obtain ⟨m0, hm0, i0, hi0, ho0⟩ := mentions_iff.1 hm
  obtain ⟨w1, w2, w3⟩ := word_in_trim (hms m0 hm0) ho0
  generalize hL : lineAt t s = L at *
  generalize hA : L.takeWhile isDeco = A at *
  generalize hT : trim L = T at *
  have hlen : L.length = A.length + T.length + b.length := by rw [hl]; simp [Nat.add_assoc]
  have hTpos : 0 < T.length := by
    rcases T with _ | ⟨c, T⟩
    · exact absurd rfl w3
    · simp
  have hLt : s + L.length ≤ t.length := by have := run_le isDot t s hsl; rw [← line_length, hL] at this; exact this
  have get : ∀ i, i < L.length → t[s + i]? = L[i]? := by intro i hi; subst hL; exact line_get hi
  have eolL : eol t (s + L.length) = true := by subst hL; exact line_end hsl
  have nnl : ∀ i, i < L.length → t[s + i]? ≠ some (c! '\n') := by intro i hi; subst hL; exact line_no_nl hi
  have firstEol : ∀ g, s ≤ g → g < s + L.length → eol t g = false := by
    intro g h1 h2
    have := nnl (g - s) (by omega)
    rw [show s + (g - s) = g by omega] at this
    unfold eol
    have hne : g ≠ t.length := by omega
    simp [hne, this]
  -- the run of decoration from p ends where the trimmed line begins
  have hAd : ∀ i, i < A.length → Deco t (s + i) := by
    intro i hi
    have hiL : i < L.length := by omega
    refine ⟨L[i], by rw [get i hiL, List.getElem?_eq_getElem hiL], ?_⟩
    have h1 := List.all_eq_true.1 (List.all_takeWhile (p := isDeco) (l := L)) A[i] (by rw [hA]; exact List.getElem_mem hi)
    have h2 : L[i] = A[i] := by
      have hp := List.takeWhile_prefix (l := L) isDeco
      rw [hA] at hp
      exact (hp.getElem hi).symm
    rw [h2]; exact h1
  have hq : t[s + A.length]? = some T[0] ∧ isDeco T[0] = false := by
    constructor
    · rw [get _ (by omega)]
      have : L[A.length]? = T[0]? := by
        rw [hl, List.append_assoc, List.getElem?_append_right (Nat.le_refl _), Nat.sub_self, List.getElem?_append_left hTpos]
      rw [this, List.getElem?_eq_getElem hTpos]
    · exact hhead _ (by rw [List.head?_eq_getElem?, List.getElem?_eq_getElem hTpos]; simp)
  have hrun : p + run isDeco t p = s + A.length := by
    have h1 : s + A.length - p ≤ run isDeco t p := by
      apply le_run
      intro i hi
      rcases Nat.lt_or_ge (p + i) s with h | h
      · exact hd _ (by omega) h
      · have := hAd (p + i - s) (by omega)
        rwa [show s + (p + i - s) = p + i by omega] at this
    rcases Nat.lt_or_ge (s + A.length - p) (run isDeco t p) with h2 | h2
    · obtain ⟨c, hc, hcd⟩ := run_at (P := isDeco) h2
      rw [show p + (s + A.length - p) = s + A.length by omega, hq.1] at hc
      cases hc
      rw [hq.2] at hcd; cases hcd
    · omega
  -- the end of the note
  have hf1 : ∀ i, i < b.length → Deco t (s + A.length + T.length + i) := by
    intro i hi
    refine ⟨b[i], ?_, hbd _ (List.getElem_mem hi)⟩
    rw [show s + A.length + T.length + i = s + (A.length + T.length + i) by omega, get _ (by omega), hl,
      List.getElem?_append_right (by simp only [List.length_append]; omega), List.length_append,
      show A.length + T.length + i - (A.length + T.length) = i by omega, List.getElem?_eq_getElem hi]
  have hf2 : ∃ c, t[s + A.length + T.length - 1]? = some c ∧ isDeco c = false := by
    refine ⟨T[T.length - 1]'(by omega), ?_, hlast _ (by rw [List.getLast?_eq_getElem?, List.getElem?_eq_getElem (by omega)]; simp)⟩
    rw [show s + A.length + T.length - 1 = s + (A.length + (T.length - 1)) by omega, get _ (by omega), hl, List.append_assoc,
      List.getElem?_append_right (by omega), show A.length + (T.length - 1) - A.length = T.length - 1 by omega,
      List.getElem?_append_left (by omega), List.getElem?_eq_getElem]
  -- the last part of the expression, from the end of the note
  have hG : ∃ g, greedy (s + A.length + T.length) (run isDeco t (s + A.length + T.length))
      (fun g => if eol t g then some (s + A.length, s + A.length + T.length, g) else none) = some (s + A.length, s + A.length + T.length, g) ∧
      s + L.length ≤ g ∧ g ≤ t.length ∧ eol t g = true ∧ ∀ i, s + A.length + T.length ≤ i → i < g → Deco t i := by
    have hbr : b.length ≤ run isDeco t (s + A.length + T.length) := le_run hf1
    obtain ⟨x, hx⟩ := greedy_isSome (p := s + A.length + T.length) (n := run isDeco t (s + A.length + T.length)) (i := b.length)
      (f := fun g => if eol t g then some (s + A.length, s + A.length + T.length, g) else none) hbr (by
        have : s + A.length + T.length + b.length = s + L.length := by omega
        simp only [this, eolL, if_true]; rfl)
    obtain ⟨i, hi, hxi⟩ := greedy_some hx
    split at hxi
    · rename_i he
      cases hxi
      refine ⟨_, hx, ?_, ?_, he, ?_⟩
      · rcases Nat.lt_or_ge (s + A.length + T.length + i) (s + L.length) with h | h
        · rw [firstEol _ (by omega) h] at he; cases he
        · exact h
      · have := run_le isDeco t (s + A.length + T.length) (by omega)
        omega
      · intro k hk1 hk2
        have := run_at (P := isDeco) (t := t) (p := s + A.length + T.length) (i := k - (s + A.length + T.length)) (by omega)
        rwa [show s + A.length + T.length + (k - (s + A.length + T.length)) = k by omega] at this
    · cases hxi
  obtain ⟨g, hg, hg1, hg2, hg3, hg4⟩ := hG
  refine ⟨g, ?_, hg1, hg2, hg3, hg4, by omega⟩
  unfold matchAt
  rw [if_pos hb]
  apply greedy_top
  rw [hrun]
  have hne : ms.isEmpty = false := by
    cases ms with
    | nil => cases hm0
    | cons a as => rfl
  rw [hne]
  simp only [Bool.false_eq_true, if_false]
  have hrunq : run isDot t (s + A.length) = T.length + b.length := by
    have h1 : T.length + b.length ≤ run isDot t (s + A.length) := by
      apply le_run
      intro i hi
      have hiL : A.length + i < L.length := by omega
      have hc := get (A.length + i) hiL
      rw [List.getElem?_eq_getElem hiL] at hc
      refine ⟨L[A.length + i], by rw [Nat.add_assoc]; exact hc, ?_⟩
      have := nnl (A.length + i) hiL
      rw [hc] at this
      have h' : L[A.length + i] ≠ c! '\n' := fun h => this (by rw [h])
      simpa [isDot] using h'
    rcases Nat.lt_or_ge (T.length + b.length) (run isDot t (s + A.length)) with h2 | h2
    · obtain ⟨c, hc, hcd⟩ := run_at (P := isDot) h2
      rw [show s + A.length + (T.length + b.length) = s + L.length by omega] at hc
      unfold eol at eolL
      rw [hc] at eolL
      have hlt : s + L.length < t.length := by
        rw [List.getElem?_eq_some_iff] at hc; exact hc.1
      have : s + L.length ≠ t.length := by omega
      simp [this] at eolL
      subst eolL
      exact absurd hcd (by decide)
    · omega
  -- whatever word is found wherever, the result is the same
  have inner : ∀ m ∈ ms, ∀ r, s + A.length ≤ r → m.isPrefixOf (t.drop r) = true → r ≤ s + L.length →
      lzy (r + m.length) (run isDot t (r + m.length)) (fun f => greedy f (run isDeco t f)
        fun g => if eol t g then some (s + A.length, f, g) else none) = some (s + A.length, s + A.length + T.length, g) := by
    intro m hmm r hr hocc hre
    have hw := hms m hmm
    rw [occ_iff] at hocc
    -- the word ends in this line
    have hin : r + m.length ≤ s + L.length := by
      rcases Nat.lt_or_ge (s + L.length) (r + m.length) with h | h
      · exfalso
        have ho := hocc (s + L.length - r) (by omega)
        rw [show r + (s + L.length - r) = s + L.length by omega] at ho
        unfold eol at eolL
        rw [ho] at eolL
        have hlt : s + L.length < t.length := by
          rw [List.getElem?_eq_some_iff] at ho; exact ho.1
        have : s + L.length ≠ t.length := by omega
        simp [this] at eolL
        exact hw.oneLine (eolL ▸ List.getElem_mem _)
      · exact h
    have hoL : ∀ j (h : j < m.length), L[r - s + j]? = some m[j] := by
      intro j hj
      rw [← get _ (by omega), ← hocc j hj]
      congr 1; omega
    have w2' := (word_in_trim hw hoL).2.1
    rw [hA, hT] at w2'
    have hge : r + m.length ≤ s + A.length + T.length := by omega
    apply lzy_skip (k := s + A.length + T.length - (r + m.length))
    · have : s + L.length - (r + m.length) ≤ run isDot t (r + m.length) := by
        apply le_run
        intro i hi
        have hiL : r + m.length + i - s < L.length := by omega
        have hc := get _ hiL
        rw [List.getElem?_eq_getElem hiL, show s + (r + m.length + i - s) = r + m.length + i by omega] at hc
        refine ⟨_, hc, ?_⟩
        have h' := nnl _ hiL
        rw [show s + (r + m.length + i - s) = r + m.length + i by omega, hc] at h'
        have h'' : L[r + m.length + i - s] ≠ c! '\n' := fun h => h' (by rw [h])
        simpa [isDot] using h''
      omega
    · intro i hi
      apply greedy_none
      intro j hj
      -- decoration from before the end of the note does not reach the end of the line
      obtain ⟨c, hc, hcd⟩ := hf2
      have : r + m.length + i + j < s + A.length + T.length := by
        rcases Nat.lt_or_ge (r + m.length + i + j) (s + A.length + T.length) with h | h
        · exact h
        · exfalso
          obtain ⟨c', hc', hcd'⟩ := run_at (P := isDeco) (t := t) (p := r + m.length + i) (i := s + A.length + T.length - 1 - (r + m.length + i)) (by omega)
          rw [show r + m.length + i + (s + A.length + T.length - 1 - (r + m.length + i)) = s + A.length + T.length - 1 by omega, hc] at hc'
          cases hc'
          rw [hcd] at hcd'; cases hcd'
      rw [firstEol _ (by omega) (by omega)]
      rfl
    · rw [show r + m.length + (s + A.length + T.length - (r + m.length)) = s + A.length + T.length by omega]
      exact hg
  rw [hrunq]
  apply greedy_const
  · intro i hi
    cases hfs : ms.findSome? (fun m => if m.isPrefixOf (t.drop (s + A.length + i)) then
        lzy (s + A.length + i + m.length) (run isDot t (s + A.length + i + m.length)) (fun f => greedy f (run isDeco t f)
          fun g => if eol t g then some (s + A.length, f, g) else none) else none) with
    | none => exact Or.inl rfl
    | some x =>
      right
      obtain ⟨m, hmm, hx⟩ := List.exists_of_findSome?_eq_some hfs
      split at hx
      · rename_i hocc
        rw [inner m hmm _ (by omega) hocc (by omega)] at hx
        exact hx.symm
      · cases hx
  · refine ⟨i0 - A.length, by omega, ?_⟩
    rw [show s + A.length + (i0 - A.length) = s + i0 by omega]
    have hocc : m0.isPrefixOf (t.drop (s + i0)) = true := by
      rw [occ_iff]
      intro j hj
      rw [← ho0 j hj, ← get _ (by omega), Nat.add_assoc]
    cases hfs : ms.findSome? (fun m => if m.isPrefixOf (t.drop (s + i0)) then
        lzy (s + i0 + m.length) (run isDot t (s + i0 + m.length)) (fun f => greedy f (run isDeco t f)
          fun g => if eol t g then some (s + A.length, f, g) else none) else none) with
    | none =>
      rw [List.findSome?_eq_none_iff] at hfs
      have := hfs m0 hm0
      rw [if_pos hocc, inner m0 hm0 _ (by omega) hocc (by omega)] at this
      cases this
    | some x =>
      obtain ⟨m, hmm, hx⟩ := List.exists_of_findSome?_eq_some hfs
      split at hx
      · rename_i hocc'
        rw [inner m hmm _ (by omega) hocc' (by omega)] at hx
        exact hx.symm
      · cases hx

/-- The beginning of the line of a position, not before another. -/
theorem line_start (t : QString) {p r : Nat} (h : p ≤ r) :
    ∃ s, p ≤ s ∧ s ≤ r ∧ (s = p ∨ t[s - 1]? = some (c! '\n')) ∧ ∀ i, s ≤ i → i < r → t[i]? ≠ some (c! '\n') := by
  induction r with
  | zero => exact ⟨p, Nat.le_refl _, h, Or.inl rfl, fun i h1 h2 => by omega⟩
  | succ r ih =>
    rcases Nat.lt_or_ge r p with hlt | hge
    · exact ⟨p, Nat.le_refl _, h, Or.inl rfl, fun i h1 h2 => by omega⟩
    · by_cases hn : t[r]? = some (c! '\n')
      · exact ⟨r + 1, by omega, Nat.le_refl _, Or.inr hn, fun i h1 h2 => by omega⟩
      · obtain ⟨s, h1, h2, h3, h4⟩ := ih hge
        refine ⟨s, h1, by omega, h3, ?_⟩
        intro i hi1 hi2
        rcases Nat.lt_or_ge i r with h' | h'
        · exact h4 i hi1 h'
        · have : i = r := by omega
          subst this; exact hn

/-- If the expression matches, a line mentions a marker, and there is only decoration before it. -/
theorem matchAt_line {ms : List QString} (hne : ms ≠ []) (hms : ∀ m ∈ ms, Word m) {t : QString} {p : Nat} {x : Nat × Nat × Nat}
    (h : matchAt ms t p = some x) : ∃ s, p ≤ s ∧ s < t.length ∧ (s = p ∨ t[s - 1]? = some (c! '\n')) ∧ (∀ i, p ≤ i → i < s → Deco t i) ∧
      mentions ms (lineAt t s) = true := by
  unfold matchAt at h
  split at h
  · obtain ⟨i, hi, h⟩ := greedy_some h
    obtain ⟨j, hj, h⟩ := greedy_some h
    have he : ms.isEmpty = false := by cases ms with
      | nil => exact absurd rfl hne
      | cons => rfl
    rw [he] at h
    simp only [Bool.false_eq_true, if_false] at h
    obtain ⟨m, hm, h⟩ := List.exists_of_findSome?_eq_some h
    split at h
    · rename_i hocc
      clear h
      rw [occ_iff] at hocc
      obtain ⟨s, h1, h2, h3, h4⟩ := line_start t (p := p) (r := p + i + j) (by omega)
      have hsq : s ≤ p + i := by
        rcases Nat.lt_or_ge (p + i) s with hlt | hge
        · exfalso
          obtain ⟨c, hc, hd⟩ := run_at (P := isDot) (t := t) (p := p + i) (i := s - 1 - (p + i)) (by omega)
          rw [show p + i + (s - 1 - (p + i)) = s - 1 by omega] at hc
          rcases h3 with h3 | h3
          · omega
          · rw [hc] at h3; cases h3; exact absurd hd (by decide)
        · exact hge
      have hpos : 0 < m.length := by
        rcases m with _ | ⟨c, m⟩
        · exact absurd rfl (hms _ hm).nonempty
        · simp
      have hlast := hocc (m.length - 1) (by omega)
      have hlen : p + i + j + (m.length - 1) < t.length := by
        rw [List.getElem?_eq_some_iff] at hlast; exact hlast.1
      -- the word is in the line of s
      have hL : p + i + j + m.length - s ≤ (lineAt t s).length := by
        rw [line_length]
        apply le_run
        intro k hk
        have hkl : s + k < t.length := by omega
        refine ⟨t[s + k], List.getElem?_eq_getElem hkl, ?_⟩
        have hnn : t[s + k] ≠ c! '\n' := by
          intro hc
          rcases Nat.lt_or_ge (s + k) (p + i + j) with hlt | hge
          · exact h4 (s + k) (by omega) hlt (by rw [List.getElem?_eq_getElem hkl, hc])
          · have ho := hocc (s + k - (p + i + j)) (by omega)
            rw [show p + i + j + (s + k - (p + i + j)) = s + k by omega, List.getElem?_eq_getElem hkl, hc, Option.some.injEq] at ho
            exact (hms _ hm).oneLine (ho ▸ List.getElem_mem _)
        simpa [isDot] using hnn
      refine ⟨s, h1, by omega, h3, ?_, ?_⟩
      · intro k hk1 hk2
        have := run_at (P := isDeco) (t := t) (p := p) (i := k - p) (by omega)
        rwa [show p + (k - p) = k by omega] at this
      · rw [mentions_iff]
        refine ⟨m, hm, p + i + j - s, by omega, ?_⟩
        intro k hk
        rw [← line_get (by omega), ← hocc k hk]
        congr 1; omega
    · cases h
  · cases h

/-- What is found from a position on: the notes of the lines that begin there or later. -/
def rest (ms : List QString) (t : QString) (p : Nat) : List (Nat × Nat) :=
  (List.range' p (t.length + 1 - p)).flatMap fun s => if bol t s then lineNote ms t s else []

theorem rest_step {ms : List QString} {t : QString} {p : Nat} (h : p ≤ t.length) :
    rest ms t p = (if bol t p then lineNote ms t p else []) ++ rest ms t (p + 1) := by
  unfold rest
  rw [show t.length + 1 - p = (t.length + 1 - (p + 1)) + 1 by omega, List.range'_succ, List.flatMap_cons]

theorem rest_skip {ms : List QString} {t : QString} {p q : Nat} (hpq : p ≤ q) (hq : q ≤ t.length)
    (h : ∀ s, p ≤ s → s < q → bol t s = true → mentions ms (lineAt t s) = false) : rest ms t p = rest ms t q := by
  induction hk : q - p generalizing p with
  | zero => have : p = q := by omega
            subst this; rfl
  | succ k ih =>
    rw [rest_step (by omega), ih (p := p + 1) (by omega) (fun s h1 h2 => h s (by omega) h2) (by omega)]
    cases hb : bol t p with
    | false => simp
    | true =>
      have := h p (Nat.le_refl _) (by omega) hb
      simp [lineNote, this]

theorem search_rest {ms : List QString} (hne : ms ≠ []) (hms : ∀ m ∈ ms, Word m) (t : QString) (n p : Nat) (h : t.length + 1 - p ≤ n) :
    search ms t n p = rest ms t p := by
  induction n generalizing p with
  | zero =>
    unfold rest
    rw [show t.length + 1 - p = 0 by omega]; rfl
  | succ n ih =>
    rw [search]
    split
    · unfold rest
      rw [show t.length + 1 - p = 0 by omega]; rfl
    · rename_i hp
      have hp : p ≤ t.length := by omega
      cases hm : matchAt ms t p with
      | none =>
        show search ms t n (p + 1) = _
        rw [ih _ (by omega), rest_step hp]
        cases hb : bol t p with
        | false => simp
        | true =>
          cases hmm : mentions ms (lineAt t p) with
          | false => simp [lineNote, hmm]
          | true =>
            obtain ⟨g, hg, -⟩ := matchAt_some hms hb (Nat.le_refl p) hp (fun i h1 h2 => by omega) hmm
            rw [hm] at hg; cases hg
      | some x =>
        have hb : bol t p = true := by
          unfold matchAt at hm
          split at hm
          · assumption
          · cases hm
        obtain ⟨s, s1, s2, s3, s4, s5⟩ := matchAt_line hne hms hm
        obtain ⟨g, hg, g1, g2, g3, g4, g5⟩ := matchAt_some hms hb s1 (by omega) s4 s5
        rw [hm] at hg
        cases hg
        show _ :: search ms t n (if g > p then g else p + 1) = _
        rw [if_pos g5, ih _ (by omega)]
        rw [rest_skip (q := s) s1 (by omega)]
        · rw [rest_step (p := s) (by omega)]
          have hbs : bol t s = true := by
            rcases s3 with s3 | s3
            · subst s3; exact hb
            · unfold bol; simp [s3, s2]
          rw [if_pos hbs, rest_skip (p := s + 1) (q := g)]
          · simp [lineNote, s5]
          · rcases Nat.lt_or_ge s g with h' | h'
            · exact h'
            · exfalso
              -- the line is not empty
              have hl : (lineAt t s).length = 0 := by omega
              have : mentions ms (lineAt t s) = false := deco_line hms (fun i hi => by omega)
              rw [this] at s5; cases s5
          · exact g2
          · intro s' h1 h2 hb'
            apply deco_line hms
            intro i hi
            have hnl : t[s' - 1]? = some (c! '\n') := by
              unfold bol at hb'
              have : s' ≠ 0 := by omega
              simp [this] at hb'
              exact hb'.1
            have hs' : s + (lineAt t s).length ≤ s' - 1 := by
              apply line_le_eol (by omega) _ (by omega)
              unfold eol; simp [hnl]
            have he := line_le_eol (t := t) (s := s') (g := g) (by omega) g3 g2
            apply g4 _ _ (by omega)
            obtain ⟨b, hb2, -⟩ := trim_split (lineAt t s)
            have : (lineAt t s).length = ((lineAt t s).takeWhile isDeco).length + (trim (lineAt t s)).length + b.length := by
              conv => lhs; rw [hb2]
              simp [Nat.add_assoc]
            omega
        · intro s' h1 h2 hb'
          apply deco_line hms
          intro i hi
          have hnl : t[s - 1]? = some (c! '\n') := by
            rcases s3 with s3 | s3
            · omega
            · exact s3
          have : s' + (lineAt t s').length ≤ s - 1 := by
            apply line_le_eol (by omega) _ (by omega)
            unfold eol; simp [hnl]
          exact s4 _ (by omega) (by omega)

/-- **C78.** Every line of a comment that mentions a marker is one note, in order; no other line is. -/
theorem notes_lines {ms : List QString} (hne : ms ≠ []) (hms : ∀ m ∈ ms, Word m) (t : QString) :
    notes ms t = (lineStarts t).flatMap (lineNote ms t) := by
  unfold notes
  rw [search_rest hne hms t _ _ (by omega)]
  unfold rest lineStarts
  rw [← List.range_eq_range']
  have key : ∀ l : List Nat, (∀ s ∈ l, s ≤ t.length) → l.flatMap (fun s => if bol t s then lineNote ms t s else []) =
      (l.filter fun s => s == 0 || t[s - 1]? == some (c! '\n')).flatMap (lineNote ms t) := by
    intro l
    induction l with
    | nil => intro _; rfl
    | cons s l ih =>
      intro hl
      rw [List.flatMap_cons, ih (fun x hx => hl x (List.mem_cons_of_mem _ hx)), List.filter_cons]
      have hs := hl s List.mem_cons_self
      cases hb : bol t s with
      | true =>
        have : (s == 0 || t[s - 1]? == some (c! '\n')) = true := by
          unfold bol at hb
          simp at hb ⊢
          rcases hb with hb | hb
          · exact Or.inl hb
          · exact Or.inr hb.1
        rw [this]; simp
      | false =>
        cases hc : (s == 0 || t[s - 1]? == some (c! '\n')) with
        | false => simp
        | true =>
          have hlen : s = t.length := by
            unfold bol at hb
            simp at hb hc
            rcases hc with hc | hc
            · exact absurd hc hb.1
            · have := hb.2 hc
              omega
          have : lineNote ms t s = [] := by
            have : mentions ms (lineAt t s) = false := by
              apply deco_line hms
              intro i hi
              have : lineAt t s = [] := by unfold lineAt; rw [hlen]; simp
              rw [this] at hi; simp at hi
            simp [lineNote, this]
          simp [this]
  apply key
  intro s hs
  rw [List.mem_range] at hs
  omega

/-- The text of a note is its line without the slashes, stars and white space around. -/
theorem note_text {ms : List QString} {t : QString} {s : Nat} {x : Nat × Nat} (h : x ∈ lineNote ms t s) : noteText t x = trim (lineAt t s) := by
  unfold lineNote at h
  split at h
  · rw [List.mem_singleton] at h
    subst h
    unfold noteText
    obtain ⟨b, hb, -⟩ := trim_split (lineAt t s)
    have hp : lineAt t s <+: t.drop s := List.takeWhile_prefix _
    obtain ⟨y, hy⟩ := hp
    rw [← List.drop_drop, ← hy, Nat.add_sub_cancel_left]
    generalize lineAt t s = L at *
    generalize L.takeWhile isDeco = A at *
    generalize trim L = T at *
    subst hb
    rw [List.append_assoc, List.append_assoc, List.drop_left, List.take_left]
  · cases h

/-- **C78 (what is trimmed).** -/
theorem isDeco_iff (c : QChar) : isDeco c = true ↔ c = c! '/' ∨ c = c! '*' ∨ c = c! ' ' ∨ c = c! '\t' ∨ c = c! '\n' ∨ c = 11 ∨ c = 12 ∨ c = c! '\r' := by
  unfold isDeco asciiSpace
  simp only [Bool.or_eq_true, beq_iff_eq, Bool.and_eq_true, decide_eq_true_eq]
  constructor
  · rintro (h | h); · rcases h with h | h <;> simp [h]
    rcases h with h | h
    · simp [h]
    · have : c = 9 ∨ c = 10 ∨ c = 11 ∨ c = 12 ∨ c = 13 := by
        have h1 : 9 ≤ c := h.1
        have h2 : c ≤ 13 := h.2
        omega
      rcases this with h | h | h | h | h <;> simp [h]
  · rintro (h | h | h | h | h | h | h | h) <;> subst h <;> decide

/-- **C78 (where lines end).** -/
theorem isDot_iff (c : QChar) : isDot c = false ↔ c = c! '\n' := by
  simp [isDot]

/-- Finding: with no markers configured every comment has a note. -/
theorem no_markers_note (t : QString) : notes [] t ≠ [] := by
  have hm : ∃ x, matchAt [] t 0 = some x := by
    unfold matchAt
    rw [if_pos (by rfl)]
    apply greedy_isSome (i := run isDeco t 0) (Nat.le_refl _)
    have hq := run_le isDeco t 0 (Nat.zero_le _)
    have : ∃ x, greedy (0 + run isDeco t 0) (run isDot t (0 + run isDeco t 0)) (fun r =>
        (if ([] : List QString).isEmpty then [[]] else []).findSome? fun m =>
        if m.isPrefixOf (t.drop r) then
          lzy (r + m.length) (run isDot t (r + m.length)) fun f =>
          greedy f (run isDeco t f) fun g => if eol t g then some (0 + run isDeco t 0, f, g) else none
        else none) = some x := by
      apply greedy_isSome (i := run isDot t (0 + run isDeco t 0)) (Nat.le_refl _)
      have he := line_end (t := t) (s := 0 + run isDeco t 0) hq
      rw [line_length] at he
      have hz : run isDot t (0 + run isDeco t 0 + run isDot t (0 + run isDeco t 0)) = 0 := by
        cases hr : run isDot t (0 + run isDeco t 0 + run isDot t (0 + run isDeco t 0)) with
        | zero => rfl
        | succ k =>
          obtain ⟨c, hc, hd⟩ := run_at (P := isDot) (i := 0) (by rw [hr]; exact Nat.succ_pos _)
          rw [run_stop (P := isDot) hc] at hd; cases hd
      obtain ⟨y, hy⟩ := greedy_isSome (p := 0 + run isDeco t 0 + run isDot t (0 + run isDeco t 0)) (n := run isDeco t (0 + run isDeco t 0 + run isDot t (0 + run isDeco t 0)))
        (i := 0) (f := fun g => if eol t g then some (0 + run isDeco t 0, 0 + run isDeco t 0 + run isDot t (0 + run isDeco t 0), g) else none)
        (Nat.zero_le _) (by simp only [Nat.add_zero, he, if_true]; rfl)
      simp only [Nat.zero_add] at hz hy
      simp [hz, lzy, hy]
    obtain ⟨x, hx⟩ := this
    rw [hx]; rfl
  obtain ⟨⟨q, f, g⟩, hx⟩ := hm
  unfold notes
  rw [search, if_neg (by omega), hx]
  simp

/-! ### From the comments of a file -/

/-- A hint with source "to-do": its text, line, first and last column + 1. -/
structure Hint where
  text : QString
  line : Nat
  first : Nat
  last : Nat
  deriving DecidableEq, Repr

/-- Line and column of an offset.  Trusted: `LocationTable::positionAt` of kdevelop-pg gives these for a complete line table (see C08 for what is in it). -/
def lineCol (c : QString) (o : Nat) : Nat × Nat := ((c.take o).count (c! '\n'), ((c.take o).reverse.takeWhile isDot).length)

/-- `extractTodosFromComment` (php.g:1248-1266) with the check of `reportProblem` (php.g:1290-1296): the parser has not begun to read, so its index is 0. -/
def extract (ms : List QString) (c : QString) (size : Nat) (b e : Nat) : List Hint :=
  if 0 ≥ size then []
  else (notes ms (slice c b e)).map fun x => ⟨noteText (slice c b e) x, (lineCol c b).1, (lineCol c b).2 + x.1, (lineCol c b).2 + x.2⟩

/-- The loops of `tokenize` again (php.g:1205-1242, compare `fill`), for the hints: `size` is the number of tokens pushed so far.  `none`: still running. -/
def todos (u : CharClass) (ms : List QString) (c : QString) : Nat → LState → Nat → Option (List Hint)
  | 0, _, _ => none
  | n + 1, s, size =>
    match step u c s with
    | none => none
    | some (_, .eof) => some []
    | some (s', .tok t b e) =>
      if t.isTrivia then (todos u ms c n s' size).map fun r => (if t = .COMMENT ∨ t = .DOC_COMMENT then extract ms c size b e else []) ++ r
      else todos u ms c n s' (size + 1)

/-- The hints for the lines of a comment that begins at `b`, in the words of the specification. -/
def commentHints (ms : List QString) (c : QString) (b e : Nat) : List Hint :=
  ((lineStarts (slice c b e)).filter fun s => mentions ms (lineAt (slice c b e) s)).map fun s =>
    let l := lineAt (slice c b e) s
    let first := (lineCol c b).2 + s + (l.takeWhile isDeco).length
    ⟨trim l, (lineCol c b).1, first, first + (trim l).length⟩

theorem extract_hints {ms : List QString} (hne : ms ≠ []) (hms : ∀ m ∈ ms, Word m) (c : QString) (size b e : Nat) (h : 0 < size) :
    extract ms c size b e = commentHints ms c b e := by
  unfold extract commentHints
  rw [if_neg (by omega), notes_lines hne hms]
  generalize slice c b e = t
  generalize lineStarts t = l
  induction l with
  | nil => rfl
  | cons s l ih =>
    rw [List.flatMap_cons, List.map_append, ih, List.filter_cons]
    cases hm : mentions ms (lineAt t s) with
    | false => simp [lineNote, hm]
    | true =>
      have hx : (s + ((lineAt t s).takeWhile isDeco).length, s + ((lineAt t s).takeWhile isDeco).length + (trim (lineAt t s)).length) ∈ lineNote ms t s := by
        simp [lineNote, hm]
      have := note_text hx
      rw [Nat.add_assoc] at this
      simp [lineNote, hm, this, Nat.add_assoc]

variable {u : CharClass} {c : QString}

theorem todos_spec {ms : List QString} (hne : ms ≠ []) (hms : ∀ m ∈ ms, Word m) : ∀ {n : Nat} {s : LState} {size : Nat} {hs : List Hint}, 0 < size →
    todos u ms c n s size = some hs → ∃ (toks : List (Tok × Nat × Nat)) (m : Nat) (sf sf' : LState), runN u c m s = some (toks.map Out.ofTok, sf) ∧ step u c sf = some (sf', .eof) ∧
      hs = (toks.filter fun x => x.1 == .COMMENT || x.1 == .DOC_COMMENT).flatMap fun x => commentHints ms c x.2.1 x.2.2
  | 0, s, size, hs, _, h => by simp [todos] at h
  | n + 1, s, size, hs, hsz, h => by
    unfold todos at h
    cases hst : step u c s with
    | none => rw [hst] at h; simp at h
    | some p =>
      obtain ⟨s', o⟩ := p
      rw [hst] at h
      cases o with
      | eof =>
        simp at h
        exact ⟨[], 0, s, s', rfl, hst, by simp [← h]⟩
      | tok t b e =>
        simp only at h
        cases ht : t.isTrivia with
        | true =>
          rw [ht, if_pos rfl, Option.map_eq_some_iff] at h
          obtain ⟨r, hr, he⟩ := h
          obtain ⟨toks, m, sf, sf', h1, h2, h3⟩ := todos_spec hne hms hsz hr
          refine ⟨(t, b, e) :: toks, m + 1, sf, sf', runN_cons hst h1, h2, ?_⟩
          rw [← he, h3, List.filter_cons]
          by_cases hc : t = .COMMENT ∨ t = .DOC_COMMENT
          · rw [if_pos hc, if_pos (by simpa using hc), List.flatMap_cons, extract_hints hne hms _ _ _ _ hsz]
          · rw [if_neg hc, if_neg (by simpa using hc), List.nil_append]
        | false =>
          rw [ht, if_neg (by decide)] at h
          obtain ⟨toks, m, sf, sf', h1, h2, h3⟩ := todos_spec hne hms (Nat.succ_pos _) h
          refine ⟨(t, b, e) :: toks, m + 1, sf, sf', runN_cons hst h1, h2, ?_⟩
          rw [h3, List.filter_cons, if_neg]
          intro hc
          simp at hc
          rcases hc with hc | hc <;> rw [hc] at ht <;> cases ht

/-- **C78 (files).** In a file, the hints are those of all its comments, in order: none is lost before the first token, because a file begins outside PHP. -/
theorem file_hints {ms : List QString} (hu : u.Lawful) (hne : ms ≠ []) (hms : ∀ m ∈ ms, Word m) {n : Nat} {hs : List Hint}
    (h : todos u ms c n (LState.init false) 0 = some hs) : ∃ toks, LexerTokens u c false toks ∧
      hs = (toks.filter fun x => x.1 == .COMMENT || x.1 == .DOC_COMMENT).flatMap fun x => commentHints ms c x.2.1 x.2.2 := by
  cases n with
  | zero => simp [todos] at h
  | succ n =>
    unfold todos at h
    cases hst : step u c (LState.init false) with
    | none => rw [hst] at h; simp at h
    | some p =>
      obtain ⟨s', o⟩ := p
      rw [hst] at h
      cases o with
      | eof =>
        simp at h
        exact ⟨[], ⟨0, _, s', rfl, hst⟩, by simp [← h]⟩
      | tok t b e =>
        have ht := html_tokens hu (s := LState.init false) (s' := s') (php := false) ⟨⟨0, [], rfl⟩, hst⟩ rfl
        have htr : t.isTrivia = false := by rcases ht with rfl | rfl | rfl <;> rfl
        simp only at h
        rw [htr, if_neg (by decide)] at h
        obtain ⟨toks, m, sf, sf', h1, h2, h3⟩ := todos_spec hne hms (Nat.succ_pos _) h
        refine ⟨(t, b, e) :: toks, ⟨m + 1, sf, sf', runN_cons hst h1, h2⟩, ?_⟩
        rw [h3, List.filter_cons, if_neg]
        intro hc
        simp at hc
        rcases hc with hc | hc <;> rw [hc] at htr <;> cases htr

/-! ### Positions -/

theorem lineCol_same {c : QString} {b k : Nat} (h : ∀ i, b ≤ i → i < b + k → ∃ x, c[i]? = some x ∧ x ≠ c! '\n') : lineCol c (b + k) = ((lineCol c b).1, (lineCol c b).2 + k) := by
  induction k with
  | zero => simp
  | succ k ih =>
    have ih := ih (fun i h1 h2 => h i h1 (by omega))
    obtain ⟨x, hx, hn⟩ := h (b + k) (by omega) (by omega)
    rw [List.getElem?_eq_some_iff] at hx
    obtain ⟨hl, hx⟩ := hx
    have : c.take (b + (k + 1)) = c.take (b + k) ++ [x] := by
      rw [← Nat.add_assoc, List.take_succ_eq_append_getElem hl, hx]
    unfold lineCol at ih ⊢
    rw [this, List.count_append, List.count_singleton, List.reverse_append]
    have hd : isDot x = true := by simpa [isDot] using hn
    simp only [Prod.mk.injEq] at ih
    have hne : (x == c! '\n') = false := by simpa using hn
    simp [hd, ih.1, ih.2, hne, Nat.add_assoc]

theorem lineCol_later {c : QString} {b k i : Nat} (h1 : b ≤ i) (h2 : i < b + k) (h : c[i]? = some (c! '\n')) : (lineCol c b).1 < (lineCol c (b + k)).1 := by
  unfold lineCol
  have hs : c.take (b + k) = c.take b ++ (c.drop b).take k := by rw [List.take_add]
  rw [hs, List.count_append]
  have : 0 < ((c.drop b).take k).count (c! '\n') := by
    rw [List.count_pos_iff]
    apply List.mem_of_getElem? (i := i - b)
    rw [List.getElem?_take, if_pos (by omega), List.getElem?_drop, show b + (i - b) = i by omega, h]
  show (c.take b).count _ < _
  omega

/-- **C78 (positions).** The reported beginning is that of the note exactly if the note is in the first line of its comment. -/
theorem hint_position {c : QString} {b e k : Nat} (hk : b + k ≤ e) (he : e ≤ c.length) :
    lineCol c (b + k) = ((lineCol c b).1, (lineCol c b).2 + k) ↔ ∀ i, i < k → (slice c b e)[i]? ≠ some (c! '\n') := by
  have hget : ∀ i, i < k → (slice c b e)[i]? = c[b + i]? := by
    intro i hi
    unfold slice
    rw [List.getElem?_take, if_pos (by omega), List.getElem?_drop]
  constructor
  · intro h i hi hn
    rw [hget i hi] at hn
    have := lineCol_later (c := c) (b := b) (k := k) (i := b + i) (by omega) (by omega) hn
    rw [h] at this
    exact Nat.lt_irrefl _ this
  · intro h
    apply lineCol_same
    intro i h1 h2
    have hl : i < c.length := by omega
    refine ⟨c[i], List.getElem?_eq_getElem hl, ?_⟩
    have := h (i - b) (by omega)
    rw [hget _ (by omega), show b + (i - b) = i by omega, List.getElem?_eq_getElem hl] at this
    exact fun hc => this (by rw [hc])

/-! ### Examples -/

def exMarkers : List QString := [q! "TODO", q! "FIXME"]

example : ∀ m ∈ exMarkers, Word m := by
  intro m hm
  simp only [exMarkers, List.mem_cons, List.not_mem_nil, or_false] at hm
  rcases hm with rfl | rfl <;> exact ⟨by decide, by decide, by decide, by decide⟩

def exComment : QString := q! "/* a TODO here *\n *\n * nothing\n * FIXME: x */"

example : notes exMarkers exComment = [(3, 14), (34, 42)] := by decide +kernel
example : (notes exMarkers exComment).map (noteText exComment) = [q! "a TODO here", q! "FIXME: x"] := by decide +kernel
example : lineStarts exComment = [0, 17, 20, 31] := by decide +kernel
example : (todos asciiClass exMarkers (q! "<?php // TODO a\n/* x\n TODO b*/") 20 (LState.init false) 0) =
    some [⟨q! "TODO a", 0, 9, 15⟩, ⟨q! "TODO b", 1, 6, 12⟩] := by decide +kernel
-- started inside PHP, a comment before the first token is not looked at
example : (todos asciiClass exMarkers (q! "// TODO a\n$x") 20 (LState.init true) 0) = some [] := by decide +kernel
example : notes [] (q! "// nothing") = [(3, 10)] := by decide +kernel

end KPhp.Todo

import Verif.Lexer.Model
/-! Basic lemmas about reads, scans and character classes, used by the lexer proofs. -/
namespace KPhp

/-- The character at offset `i`, NUL outside the text (total version of `rd` for specifications). -/
def chr (c : QString) (i : Nat) : QChar := c.getD i 0

theorem rd_some {c : QString} {i : Nat} (h : i ≤ c.length) : rd c i = some (chr c i) := by
  unfold rd chr
  by_cases h1 : i < c.length
  · simp [h1]
  · have : i = c.length := by omega
    subst this; simp

theorem rd_none {c : QString} {i : Nat} (h : c.length < i) : rd c i = none := by
  unfold rd; rw [if_neg (by omega), if_neg (by omega)]

theorem lt_of_chr_ne {c : QString} {i : Nat} (h : chr c i ≠ 0) : i < c.length := by
  by_cases h1 : i < c.length
  · exact h1
  · exfalso; apply h; unfold chr; simp [List.getD, List.getElem?_eq_none (by omega : c.length ≤ i)]

theorem lt_of_chr_eq {c : QString} {i k : Nat} (h : chr c i = k) (hk : k ≠ 0) : i < c.length :=
  lt_of_chr_ne (by rw [h]; exact hk)

theorem chr_length (c : QString) : chr c c.length = 0 := by unfold chr; simp

theorem getElem?_eq_chr {c : QString} {i : Nat} (h : i < c.length) : c[i]? = some (chr c i) := by
  unfold chr; simp [h]

theorem getElem?_ten (c : QString) (i : Nat) : (c[i]? == some 10) = (chr c i == 10) := by
  by_cases h : i < c.length
  · rw [getElem?_eq_chr h]; simp
  · have : chr c i = 0 := by unfold chr; simp [List.getD, List.getElem?_eq_none (by omega : c.length ≤ i)]
    rw [this, List.getElem?_eq_none (by omega)]; rfl

theorem scanAux_spec (p : Nat → Option Bool) (f : Nat → Bool) : ∀ (k i : Nat),
    (∀ j, i ≤ j → j < i + k → (∀ l, i ≤ l → l < j → f l = true) → p j = some (f j)) →
    ∃ r, scanAux p k i = some r ∧ i ≤ r ∧ r ≤ i + k ∧
      (∀ j, i ≤ j → j < r → f j = true) ∧ (r < i + k → f r = false)
  | 0, i, _ => ⟨i, rfl, by omega, by omega, by intros; omega, by intros; omega⟩
  | k + 1, i, h => by
    have h0 := h i (by omega) (by omega) (by intros; omega)
    cases hf : f i with
    | false =>
      refine ⟨i, ?_, by omega, by omega, by intros; omega, fun _ => hf⟩
      simp [scanAux, h0, hf]
    | true =>
      obtain ⟨r, h1, h2, h3, h4, h5⟩ := scanAux_spec p f k (i + 1) (by
        intro j hj hj2 hall
        refine h j (by omega) (by omega) ?_
        intro l hl hl2
        by_cases hli : l = i
        · subst hli; exact hf
        · exact hall l (by omega) hl2)
      refine ⟨r, ?_, by omega, by omega, ?_, fun hr => h5 (by omega)⟩
      · simp [scanAux, h0, hf, h1]
      · intro j hj hj2
        by_cases hji : j = i
        · subst hji; exact hf
        · exact h4 j (by omega) hj2

/-- What a scan loop computes: the first offset at or after `i` where the predicate fails. -/
theorem scan_spec {bound i : Nat} {p : Nat → Option Bool} (f : Nat → Bool)
    (h : ∀ j, i ≤ j → j < bound → (∀ l, i ≤ l → l < j → f l = true) → p j = some (f j)) :
    ∃ r, scan bound p i = some r ∧ i ≤ r ∧ (i ≤ bound → r ≤ bound) ∧ (bound ≤ i → r = i) ∧
      (∀ j, i ≤ j → j < r → f j = true) ∧ (r < bound → f r = false) := by
  obtain ⟨r, h1, h2, h3, h4, h5⟩ := scanAux_spec p f (bound - i) i
    (fun j hj hj2 hall => h j hj (by omega) hall)
  exact ⟨r, h1, h2, by omega, by omega, h4, fun hr => h5 (by omega)⟩

theorem testAt_some {c : QString} {i : Nat} {p : QChar → Bool} (h : i ≤ c.length) :
    testAt c i p = some (p (chr c i)) := by unfold testAt; rw [rd_some h]; rfl

theorem isAt_some {c : QString} {i : Nat} {x : QChar} (h : i ≤ c.length) :
    isAt c i x = some (chr c i == x) := testAt_some h

theorem andO_some {a b : Option Bool} {x y : Bool} (ha : a = some x) (hb : x = true → b = some y) :
    (a &&? b) = some (x && y) := by
  subst ha; cases x
  · rfl
  · simp [andO, hb rfl]

theorem orO_some {a b : Option Bool} {x y : Bool} (ha : a = some x) (hb : x = false → b = some y) :
    (a ||? b) = some (x || y) := by
  subst ha; cases x
  · simp [orO, hb rfl]
  · rfl

theorem notO_some {a : Option Bool} {x : Bool} (ha : a = some x) : notO a = some (!x) := by
  subst ha; rfl

theorem lt_of_beq {c : QString} {i k : Nat} (h : (chr c i == k) = true) (hk : k ≠ 0) :
    i < c.length := lt_of_chr_eq (by simpa using h) hk

/-- Scan over characters satisfying a character predicate. -/
theorem scan_chr {c : QString} {bound i : Nat} (f : QChar → Bool) (hb : bound ≤ c.length) :
    ∃ r, scan bound (fun j => testAt c j f) i = some r ∧ i ≤ r ∧
      (i ≤ bound → r ≤ bound) ∧ (bound ≤ i → r = i) ∧
      (∀ j, i ≤ j → j < r → f (chr c j) = true) ∧ (r < bound → f (chr c r) = false) :=
  scan_spec (fun j => f (chr c j)) (fun j _ hj2 _ => testAt_some (by omega))

/-- The end of a scan is the only offset with these properties. -/
theorem scan_unique {bound i r r' : Nat} {f : Nat → Bool} (h1 : i ≤ r)
    (h2 : ∀ j, i ≤ j → j < r → f j = true) (h3 : r < bound) (h4 : f r = false) (g1 : i ≤ r')
    (g2 : ∀ j, i ≤ j → j < r' → f j = true) (g3 : r' < bound → f r' = false) : r = r' := by
  rcases Nat.lt_trichotomy r r' with h | h | h
  · have := g2 r h1 h; rw [h4] at this; exact absurd this (by decide)
  · exact h
  · have := h2 r' g1 h; rw [g3 (by omega)] at this; exact absurd this (by decide)

/-- Number of backslashes directly before offset `i`. -/
def bsBefore (c : QString) : Nat → Nat
  | 0 => 0
  | i + 1 => if chr c i = 92 then bsBefore c i + 1 else 0

theorem countBack_eq {c : QString} : ∀ {i : Nat}, i ≤ c.length + 1 →
    (∃ j, j < i ∧ chr c j ≠ 92) → countBack c i = some (bsBefore c i)
  | 0, _, ⟨j, hj, _⟩ => by omega
  | i + 1, hi, ⟨j, hj, hne⟩ => by
    unfold countBack bsBefore
    rw [rd_some (by omega)]
    by_cases h : chr c i = 92
    · have : j < i := by
        by_cases hji : j = i
        · subst hji; exact absurd h hne
        · omega
      simp [h, countBack_eq (by omega : i ≤ c.length + 1) ⟨j, this, hne⟩]
    · simp [h]

/-- The escape test when there is some non-backslash before the position. -/
theorem escaped_eq {c : QString} {i s : Nat} (hi : i ≤ c.length + 1)
    (ha : ∃ j, j < s ∧ chr c j ≠ 92) :
    escaped c i s = some (decide (s < i) && bsBefore c i % 2 == 1) := by
  unfold escaped
  by_cases h : i > s
  · obtain ⟨j, hj, hne⟩ := ha
    rw [if_pos h, countBack_eq hi ⟨j, by omega, hne⟩]
    simp [h]
  · rw [if_neg h]; simp; omega

theorem bsBefore_zero {c : QString} {i : Nat} (h : chr c (i - 1) ≠ 92) : bsBefore c i = 0 := by
  cases i with
  | zero => rfl
  | succ i => unfold bsBefore; simp at h; simp [h]

/-- The escape test inside a literal whose opening character (at `s - 1`) is not a backslash: odd
number of backslashes. -/
theorem escaped_eq' {c : QString} {i s : Nat} (hi : i ≤ c.length + 1) (hsi : s ≤ i) (hs : 0 < s)
    (ha : chr c (s - 1) ≠ 92) :
    escaped c i s = some (bsBefore c i % 2 == 1) := by
  rw [escaped_eq hi ⟨s - 1, by omega, ha⟩]
  by_cases h : s < i
  · simp [h]
  · have : i = s := by omega
    subst this
    simp [bsBefore_zero ha]

theorem slice_length {c : QString} {i j : Nat} (h : j ≤ c.length) : (slice c i j).length = j - i := by
  unfold slice; simp; omega

theorem slice_length_le (c : QString) (i j : Nat) : (slice c i j).length ≤ j - i := by
  unfold slice; simp; omega

theorem slice_getElem? {c : QString} {i j k : Nat} (h : k < j - i) : (slice c i j)[k]? = c[i + k]? := by
  unfold slice; rw [List.getElem?_take, if_pos h, List.getElem?_drop]

theorem mem_slice {c : QString} {i j : Nat} {x : QChar} (hj : j ≤ c.length) (h : x ∈ slice c i j) :
    ∃ k, k < j - i ∧ x = chr c (i + k) := by
  obtain ⟨k, hk⟩ := List.mem_iff_getElem?.1 h
  have hlt : k < j - i := by
    have := (List.getElem?_eq_some_iff.1 hk).1
    have := slice_length_le c i j; omega
  rw [slice_getElem? hlt, getElem?_eq_chr (by omega)] at hk
  exact ⟨k, hlt, by simpa using hk.symm⟩

theorem slice_append {c : QString} {i j k : Nat} (h1 : i ≤ j) (h2 : j ≤ k) :
    slice c i j ++ slice c j k = slice c i k := by
  unfold slice
  have : c.drop j = (c.drop i).drop (j - i) := by rw [List.drop_drop]; congr 1; omega
  rw [this]
  have h3 : k - i = (j - i) + (k - j) := by omega
  rw [h3, List.take_add]

theorem slice_self (c : QString) (i : Nat) : slice c i i = [] := by unfold slice; simp

theorem slice_zero_full {c : QString} {k : Nat} (h : c.length ≤ k) : slice c 0 k = c := by
  unfold slice; simp [List.take_of_length_le h]

theorem slice_of_le {c : QString} {i j : Nat} (h : c.length ≤ i) : slice c i j = [] := by
  unfold slice; simp [List.drop_eq_nil_of_le h]

theorem slice_chr {c : QString} {i : Nat} (h : i < c.length) : slice c i (i + 1) = [chr c i] := by
  unfold slice
  rw [show i + 1 - i = 1 by omega]
  apply List.ext_getElem?
  intro k
  rw [List.getElem?_take]
  cases k with
  | zero => simp [List.getElem?_drop, getElem?_eq_chr h]
  | succ k => simp

/-- A slice is determined by its characters. -/
theorem slice_eq_iff {c s : QString} {i : Nat} (h : s ≠ []) :
    slice c i (i + s.length) = s ↔
      i + s.length ≤ c.length ∧ ∀ k, k < s.length → chr c (i + k) = s.getD k 0 := by
  constructor
  · intro he
    have hl : (slice c i (i + s.length)).length = s.length := by rw [he]
    have hle : i + s.length ≤ c.length := by
      unfold slice at hl; simp at hl
      have : 0 < s.length := List.length_pos_iff.mpr h
      omega
    refine ⟨hle, fun k hk => ?_⟩
    have : (slice c i (i + s.length))[k]? = s[k]? := by rw [he]
    rw [slice_getElem? (by omega)] at this
    unfold chr; simp only [List.getD, this]
  · rintro ⟨hle, hk⟩
    apply List.ext_getElem?
    intro k
    by_cases hks : k < s.length
    · rw [slice_getElem? (by omega), getElem?_eq_chr (by omega), hk k hks]
      simp [hks]
    · rw [List.getElem?_eq_none (by rw [slice_length hle]; omega),
        List.getElem?_eq_none (by omega)]

theorem nlsIn_append {c : QString} {i j k : Nat} (h1 : i ≤ j) (h2 : j ≤ k) :
    nlsIn c i k = nlsIn c i j ++ nlsIn c j k := by
  unfold nlsIn
  rw [← List.filter_append]
  congr 1
  have h3 : k - i = (j - i) + (k - j) := by omega
  have h4 : j = i + 1 * (j - i) := by omega
  rw [h3, ← List.range'_append (step := 1), ← h4]

theorem mem_nlsIn {c : QString} {i j k : Nat} :
    k ∈ nlsIn c i j ↔ i ≤ k ∧ k < j ∧ chr c k = 10 := by
  unfold nlsIn
  rw [List.mem_filter, getElem?_ten, List.mem_range'_1]
  simp
  omega

theorem nlsIn_nil {c : QString} {i j : Nat} (h : ∀ k, i ≤ k → k < j → chr c k ≠ 10) :
    nlsIn c i j = [] := by
  unfold nlsIn
  rw [List.filter_eq_nil_iff]
  intro k hk
  rw [List.mem_range'_1] at hk
  rw [getElem?_ten]
  have := h k hk.1 (by omega)
  simp [this]

theorem nlsIn_single {c : QString} {i : Nat} (h : chr c i = 10) : nlsIn c i (i + 1) = [i] := by
  unfold nlsIn
  rw [show i + 1 - i = 1 by omega]
  simp only [List.range'_one, List.filter_cons, getElem?_ten, h]
  simp

/-- Reading past the end adds no line breaks. -/
theorem nlsIn_clip {c : QString} {i j : Nat} (hi : i ≤ c.length) (h : c.length ≤ j) :
    nlsIn c i j = nlsIn c i c.length := by
  rw [nlsIn_append hi h, nlsIn_nil (i := c.length) (j := j)]
  · simp
  · intro k hk _ h10
    have := lt_of_chr_eq h10 (by decide)
    omega

section classes
variable {u : CharClass} (hu : u.Lawful)
include hu

theorem space_nul : u.isSpace 0 = false := by rw [hu.space_ascii _ (by omega)]; rfl
theorem letter_nul : u.isLetter 0 = false := by rw [hu.letter_ascii _ (by omega)]; rfl
theorem digit_nul : u.isDigit 0 = false := by rw [hu.digit_ascii _ (by omega)]; rfl
theorem lower_nul : u.toLower 0 = 0 := by rw [hu.lower_ascii _ (by omega)]; rfl

theorem valid_ascii {ch : QChar} (h : ch < 128) :
    validIdent u ch = (asciiLetter ch || asciiDigit ch || ch == 95) := by
  unfold validIdent
  rw [hu.letter_ascii _ h, hu.digit_ascii _ h]
  have : decide (ch > 127) = false := by simp; omega
  rw [this, Bool.or_false]

theorem valid_nul : validIdent u 0 = false := by rw [valid_ascii hu (by omega)]; rfl
theorem start_nul : identStart u 0 = false := by unfold identStart; rw [valid_nul hu]; rfl
theorem valid_nl : validIdent u 10 = false := by rw [valid_ascii hu (by omega)]; rfl
theorem digit_nl : u.isDigit 10 = false := by rw [hu.digit_ascii _ (by omega)]; rfl
theorem letter_nl : u.isLetter 10 = false := by rw [hu.letter_ascii _ (by omega)]; rfl

theorem lt_of_space {c : QString} {i : Nat} (h : u.isSpace (chr c i) = true) : i < c.length :=
  lt_of_chr_ne (fun h0 => by rw [h0, space_nul hu] at h; exact absurd h (by decide))
theorem lt_of_letter {c : QString} {i : Nat} (h : u.isLetter (chr c i) = true) : i < c.length :=
  lt_of_chr_ne (fun h0 => by rw [h0, letter_nul hu] at h; exact absurd h (by decide))
theorem lt_of_digit {c : QString} {i : Nat} (h : u.isDigit (chr c i) = true) : i < c.length :=
  lt_of_chr_ne (fun h0 => by rw [h0, digit_nul hu] at h; exact absurd h (by decide))
theorem lt_of_valid {c : QString} {i : Nat} (h : validIdent u (chr c i) = true) : i < c.length :=
  lt_of_chr_ne (fun h0 => by rw [h0, valid_nul hu] at h; exact absurd h (by decide))
theorem lt_of_start {c : QString} {i : Nat} (h : identStart u (chr c i) = true) : i < c.length :=
  lt_of_chr_ne (fun h0 => by rw [h0, start_nul hu] at h; exact absurd h (by decide))
theorem lt_of_lower {c : QString} {i k : Nat} (h : u.toLower (chr c i) = k) (hk : k ≠ 0) :
    i < c.length :=
  lt_of_chr_ne (fun h0 => by rw [h0, lower_nul hu] at h; exact hk h.symm)
end classes

theorem valid_of_start {u : CharClass} {ch : QChar} (h : identStart u ch = true) :
    validIdent u ch = true := by
  unfold identStart at h; simp at h; exact h.1

end KPhp

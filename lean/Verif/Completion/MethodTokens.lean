import Verif.Chars
/-!
# The modifiers typed before the cursor (C36)

Models `getMethodTokens` (completion/helpers.cpp:137-175), which reads the modifiers at the end of the
text before the cursor.
-/
namespace KPhp.Completion

/-- `QString::trimmed`: without the white space at both ends. -/
def trimmed (u : CharClass) (t : QString) : QString :=
  ((t.dropWhile u.isSpace).reverse.dropWhile u.isSpace).reverse

/-- `QString::endsWith(k, Qt::CaseInsensitive)` -/
def endsWith (u : CharClass) (t k : QString) : Bool :=
  decide (k.length ≤ t.length) && ciEq u (t.drop (t.length - k.length)) k

/-- completion/helpers.cpp:148-154, in the order of the code -/
def modifierWords : List QString :=
  [q! "private", q! "public", q! "protected", q! "static", q! "abstract", q! "final"]

/-- completion/helpers.cpp:156-172: the loop over the remaining possible tokens. -/
def tokenLoop (u : CharClass) (possible : List QString) (text : QString) : List QString :=
  match h : possible.find? (fun k => endsWith u (trimmed u text) k) with
  | none => []
  | some k =>
    k :: tokenLoop u (possible.erase k) ((trimmed u text).take ((trimmed u text).length - k.length))
termination_by possible.length
decreasing_by
  have hm := List.mem_of_find?_eq_some h
  have := List.length_pos_of_mem hm
  rw [List.length_erase_of_mem hm]; omega

/-- completion/helpers.cpp:137-175 -/
def getMethodTokens (u : CharClass) (text : QString) : List QString :=
  let t := trimmed u text
  if endsWith u t (q! "function") then
    q! "function" :: tokenLoop u modifierWords (t.take (t.length - 8))
  else tokenLoop u modifierWords t

/-! ## Specification -/

/-- A keyword as written in the text: its spelling and the white space behind it. -/
structure Word where
  spelling : QString
  space : QString
  keyword : QString

/-- The text `pre` followed by the given words; the last word comes first. -/
def written (pre : QString) : List Word → QString
  | [] => pre
  | w :: ws => written pre ws ++ w.spelling ++ w.space

/-- The modifiers of class members in PHP. -/
def phpModifiers : List QString :=
  [q! "private", q! "public", q! "protected", q! "static", q! "abstract", q! "final"]

/-- `ws` (last word first) are all the modifiers at the end of the text `written pre ws`: every word is a
modifier in some spelling, none is repeated, `function` can only be the last one, and no further modifier
stands before them. -/
structure AllModifiers (u : CharClass) (pre : QString) (ws : List Word) : Prop where
  spelled : ∀ w ∈ ws, w.spelling.map u.fold = w.keyword.map u.fold
  spaces : ∀ w ∈ ws, ∀ c ∈ w.space, u.isSpace c = true
  nodup : (ws.map Word.keyword).Nodup
  keywords : ∀ w ∈ ws.tail, w.keyword ∈ phpModifiers
  head : ∀ w ∈ ws.head?, w.keyword ∈ q! "function" :: phpModifiers
  maximal : ∀ k, k ∈ phpModifiers ∨ (k = q! "function" ∧ ws = []) → k ∉ ws.map Word.keyword →
    ¬ ∃ before word space, pre = before ++ word ++ space ∧ word.map u.fold = k.map u.fold ∧
        ∀ c ∈ space, u.isSpace c = true

/-! ## Lemmas -/

theorem dropWhile_append_of_head {p : Nat → Bool} (a b : List Nat) (hb : b ≠ []) (h : ∀ x ∈ b.head?, p x = false) :
    (a ++ b).dropWhile p = a.dropWhile p ++ b := by
  induction a with
  | nil =>
    cases b with
    | nil => exact absurd rfl hb
    | cons x b => simp [List.dropWhile, h x (by simp)]
  | cons c a ih =>
    cases hc : p c <;> simp [List.dropWhile, hc, ih]

theorem dropWhile_all {p : Nat → Bool} (a b : List Nat) (h : ∀ x ∈ a, p x = true) :
    (a ++ b).dropWhile p = b.dropWhile p := by
  induction a with
  | nil => rfl
  | cons c a ih => simp [List.dropWhile, h c (by simp), ih (fun x hx => h x (by simp [hx]))]

/-- trimming `pre word space` -/
theorem trimmed_word (u : CharClass) (pre w s : QString) (hw : w ≠ []) (hn : ∀ c ∈ w, u.isSpace c = false)
    (hs : ∀ c ∈ s, u.isSpace c = true) : trimmed u (pre ++ w ++ s) = pre.dropWhile u.isSpace ++ w := by
  unfold trimmed
  rw [List.append_assoc, dropWhile_append_of_head pre (w ++ s) (by simp [hw])]
  · rw [List.reverse_append, List.reverse_append, List.append_assoc, dropWhile_all]
    · rw [← List.nil_append (w.reverse ++ _)]
      have : (w.reverse ++ (List.dropWhile u.isSpace pre).reverse).dropWhile u.isSpace
          = w.reverse ++ (List.dropWhile u.isSpace pre).reverse := by
        have hne : w.reverse ++ (List.dropWhile u.isSpace pre).reverse ≠ [] := by simp [hw]
        have := dropWhile_append_of_head (p := u.isSpace) [] _ hne (by
          intro x hx
          have hwr : w.reverse ≠ [] := by simp [hw]
          cases hh : w.reverse with
          | nil => exact absurd hh hwr
          | cons y l =>
            rw [hh] at hx; simp at hx; subst hx
            exact hn y (by rw [← List.mem_reverse, hh]; simp))
        simpa using this
      rw [List.nil_append, this]; simp
    · intro x hx; exact hs x (by simpa using hx)
  · intro x hx
    cases w with
    | nil => exact absurd rfl hw
    | cons y l => simp at hx; subst hx; exact hn y (by simp)

theorem endsWith_iff (u : CharClass) (t k : QString) :
    endsWith u t k = true ↔ ∃ pre w, t = pre ++ w ∧ w.map u.fold = k.map u.fold := by
  unfold endsWith ciEq
  constructor
  · intro h
    simp at h
    exact ⟨t.take (t.length - k.length), t.drop (t.length - k.length), by simp, by rw [List.map_drop]; exact h.2⟩
  · rintro ⟨pre, w, rfl, h⟩
    have hl : w.length = k.length := by simpa using congrArg List.length h
    have : (pre ++ w).length - k.length = pre.length := by simp; omega
    rw [this]
    simp [h]; omega

theorem keyword_fold {u : CharClass} (hu : u.Lawful) : ∀ k ∈ q! "function" :: modifierWords, k.map u.fold = k := by
  intro k hk
  have hl : ∀ k ∈ q! "function" :: modifierWords, ∀ c ∈ k, c < 128 ∧ asciiLower c = c := by decide +kernel
  have : k.map u.fold = k.map id := List.map_congr_left fun c hc => by
    rw [hu.fold_ascii c (hl k hk c hc).1, (hl k hk c hc).2]; rfl
  rw [this, List.map_id]

theorem spelling_nonspace {u : CharClass} (hu : u.Lawful) {w k : QString} (hk : k ∈ q! "function" :: modifierWords)
    (h : w.map u.fold = k.map u.fold) : w ≠ [] ∧ ∀ c ∈ w, u.isSpace c = false := by
  rw [keyword_fold hu k hk] at h
  have hl : ∀ k ∈ q! "function" :: modifierWords, k ≠ [] ∧ ∀ c ∈ k, c < 128 ∧ asciiSpace c = false := by
    decide +kernel
  constructor
  · rintro rfl; exact (hl k hk).1 (by simpa using h.symm)
  · intro c hc
    have hm : u.fold c ∈ k := by rw [← h]; exact List.mem_map_of_mem hc
    cases hs : u.isSpace c with
    | false => rfl
    | true =>
      have := hu.fold_space c hs
      rw [this] at hm
      have := (hl k hk).2 c hm
      rw [hu.space_ascii c this.1, this.2] at hs; exact absurd hs (by simp)

/-- No keyword ends with another one, so a text ends with at most one of them. -/
theorem endsWith_unique {u : CharClass} (hu : u.Lawful) {t k k' : QString}
    (hk : k ∈ q! "function" :: modifierWords) (hk' : k' ∈ q! "function" :: modifierWords)
    (h : endsWith u t k = true) (h' : endsWith u t k' = true) : k = k' := by
  obtain ⟨p, w, rfl, hw⟩ := (endsWith_iff u t k).1 h
  obtain ⟨p', w', he, hw'⟩ := (endsWith_iff u _ k').1 h'
  rw [keyword_fold hu k hk] at hw
  rw [keyword_fold hu k' hk'] at hw'
  have hfree : ∀ a ∈ q! "function" :: modifierWords, ∀ b ∈ q! "function" :: modifierWords,
      a.isSuffixOf b = true → a = b := by decide +kernel
  have h1 : k <:+ (p ++ w).map u.fold := ⟨p.map u.fold, by simp [hw]⟩
  have h2 : k' <:+ (p ++ w).map u.fold := ⟨p'.map u.fold, by rw [he]; simp [hw']⟩
  rcases List.suffix_or_suffix_of_suffix h1 h2 with h | h
  · exact hfree k hk k' hk' (List.isSuffixOf_iff_suffix.2 h)
  · exact (hfree k' hk' k hk (List.isSuffixOf_iff_suffix.2 h)).symm

theorem dropWhile_idem (p : Nat → Bool) (l : List Nat) : (l.dropWhile p).dropWhile p = l.dropWhile p := by
  induction l with
  | nil => rfl
  | cons c l ih => cases hc : p c <;> simp [List.dropWhile, hc, ih]

theorem tokenLoop_ltrim (u : CharClass) (possible : List QString) (t : QString) :
    tokenLoop u possible (t.dropWhile u.isSpace) = tokenLoop u possible t := by
  have : trimmed u (t.dropWhile u.isSpace) = trimmed u t := by unfold trimmed; rw [dropWhile_idem]
  rw [tokenLoop, tokenLoop, this]

theorem trimmed_trimmed (u : CharClass) (t : QString) : trimmed u (trimmed u t) = trimmed u t := by
  by_cases h : ∃ c ∈ t, u.isSpace c = false
  · -- t = s₁ ++ x :: m … ; use the structure of dropWhile on both ends
    unfold trimmed
    generalize ha : t.dropWhile u.isSpace = a
    have hhead : ∀ x ∈ a.head?, u.isSpace x = false := by
      intro x hx
      cases a with
      | nil => simp at hx
      | cons y l =>
        simp at hx; subst hx
        have : ∀ (l : List Nat) (y : Nat) (r : List Nat), l.dropWhile u.isSpace = y :: r → u.isSpace y = false := by
          intro l
          induction l with
          | nil => simp
          | cons c l ih =>
            intro y r h
            cases hc : u.isSpace c
            · simp [List.dropWhile, hc] at h; rw [← h.1]; exact hc
            · simp [List.dropWhile, hc] at h; exact ih y r h
        exact this t y l ha
    generalize hb : (a.reverse.dropWhile u.isSpace) = b
    have hsuf : b <:+ a.reverse := hb ▸ List.dropWhile_suffix _
    have hpre : b.reverse <+: a := by
      rw [← List.reverse_suffix]; simpa using hsuf
    have : b.reverse.dropWhile u.isSpace = b.reverse := by
      cases hbr : b.reverse with
      | nil => rfl
      | cons y l =>
        obtain ⟨r, hr⟩ := hpre
        rw [hbr] at hr
        have := hhead y (by rw [← hr]; simp)
        simp [List.dropWhile, this]
    rw [this, List.reverse_reverse, ← hb, dropWhile_idem]
  · have hall : ∀ c ∈ t, u.isSpace c = true := by
      intro c hc
      cases hh : u.isSpace c with
      | true => rfl
      | false => exact absurd ⟨c, hc, hh⟩ h
    have h0 : t.dropWhile u.isSpace = [] := by
      have := dropWhile_all (p := u.isSpace) t [] hall
      simpa using this
    simp [trimmed, h0]

theorem tokenLoop_trimmed (u : CharClass) (possible : List QString) (t : QString) :
    tokenLoop u possible (trimmed u t) = tokenLoop u possible t := by
  rw [tokenLoop, tokenLoop, trimmed_trimmed]

theorem find_unique {u : CharClass} (hu : u.Lawful) {possible : List QString} {t k : QString}
    (hsub : ∀ x ∈ possible, x ∈ modifierWords) (hk : k ∈ possible) (h : endsWith u t k = true) :
    possible.find? (fun k => endsWith u t k) = some k := by
  cases hf : possible.find? (fun k => endsWith u t k) with
  | none => exact absurd h (by simpa using (List.find?_eq_none.1 hf k hk))
  | some k' =>
    have hm := List.mem_of_find?_eq_some hf
    have he := List.find?_some hf
    rw [endsWith_unique hu (List.mem_cons_of_mem _ (hsub k hk)) (List.mem_cons_of_mem _ (hsub k' hm)) h he]

theorem loop_step {u : CharClass} (hu : u.Lawful) {possible : List QString} {pre w s k : QString}
    (hsub : ∀ x ∈ possible, x ∈ modifierWords) (hk : k ∈ possible) (hw : w.map u.fold = k.map u.fold)
    (hs : ∀ c ∈ s, u.isSpace c = true) :
    tokenLoop u possible (pre ++ w ++ s) = k :: tokenLoop u (possible.erase k) pre := by
  have hn := spelling_nonspace hu (List.mem_cons_of_mem _ (hsub k hk)) hw
  have ht := trimmed_word u pre w s hn.1 hn.2 hs
  have he : endsWith u (pre.dropWhile u.isSpace ++ w) k = true := (endsWith_iff _ _ _).2 ⟨_, w, rfl, hw⟩
  have hl : w.length = k.length := by simpa using congrArg List.length hw
  have hf : possible.find? (fun k => endsWith u (trimmed u (pre ++ w ++ s)) k) = some k := by
    rw [ht]; exact find_unique hu hsub hk he
  rw [tokenLoop]
  split
  · next h => rw [hf] at h; exact absurd h (by simp)
  · next k' h =>
    rw [hf] at h; cases h
    rw [ht]
    have : (pre.dropWhile u.isSpace ++ w).length - k.length = (pre.dropWhile u.isSpace).length := by simp; omega
    rw [this, List.take_left', tokenLoop_ltrim]; rfl

theorem split_space (u : CharClass) (t : QString) : ∃ a s, t = a ++ s ∧ (∀ c ∈ s, u.isSpace c = true) ∧
    trimmed u t = a.dropWhile u.isSpace := by
  refine ⟨(t.reverse.dropWhile u.isSpace).reverse, (t.reverse.takeWhile u.isSpace).reverse, ?_, ?_, ?_⟩
  · rw [← List.reverse_append, List.takeWhile_append_dropWhile, List.reverse_reverse]
  · intro c hc
    have := List.all_takeWhile (p := u.isSpace) (l := t.reverse)
    exact List.all_eq_true.1 this c (by simpa using hc)
  · have hr : t = (t.reverse.dropWhile u.isSpace).reverse ++ (t.reverse.takeWhile u.isSpace).reverse := by
      rw [← List.reverse_append, List.takeWhile_append_dropWhile, List.reverse_reverse]
    generalize ha : t.reverse.dropWhile u.isSpace = a at hr ⊢
    generalize hb : t.reverse.takeWhile u.isSpace = b at hr
    have hbs : ∀ c ∈ b.reverse, u.isSpace c = true := by
      intro c hc
      have := List.all_takeWhile (p := u.isSpace) (l := t.reverse)
      rw [hb] at this
      exact List.all_eq_true.1 this c (by simpa using hc)
    subst hr
    cases a with
    | nil => 
      have := dropWhile_all (p := u.isSpace) b.reverse [] hbs
      simp at this
      simp [trimmed, this]
    | cons x a =>
      have hx : u.isSpace x = false := by
        have : ∀ (l : List Nat) (y : Nat) (r : List Nat), l.dropWhile u.isSpace = y :: r → u.isSpace y = false := by
          intro l
          induction l with
          | nil => simp
          | cons c l ih =>
            intro y r h
            cases hc : u.isSpace c
            · simp [List.dropWhile, hc] at h; rw [← h.1]; exact hc
            · simp [List.dropWhile, hc] at h; exact ih y r h
        exact this _ _ _ ha
      have := trimmed_word u a.reverse [x] b.reverse (by simp) (by simp [hx]) hbs
      rw [List.reverse_cons, this]
      rw [dropWhile_append_of_head _ _ (by simp) (by simp [hx])]

/-- the trimmed text ends with `k` iff the text is `… k white-space` -/
theorem endsWith_trimmed_iff {u : CharClass} (hu : u.Lawful) {t k : QString}
    (hk : k ∈ q! "function" :: modifierWords) :
    endsWith u (trimmed u t) k = true ↔ ∃ before word space, t = before ++ word ++ space ∧
      word.map u.fold = k.map u.fold ∧ ∀ c ∈ space, u.isSpace c = true := by
  constructor
  · intro h
    obtain ⟨a, s, rfl, hs, ht⟩ := split_space u t
    rw [ht] at h
    obtain ⟨p, w, he, hw⟩ := (endsWith_iff _ _ _).1 h
    have : a = a.takeWhile u.isSpace ++ (p ++ w) := by rw [← he, List.takeWhile_append_dropWhile]
    exact ⟨a.takeWhile u.isSpace ++ p, w, s, by rw [List.append_assoc, ← List.append_assoc _ p, ← List.append_assoc] at *; rw [← this], hw, hs⟩
  · rintro ⟨p, w, s, rfl, hw, hs⟩
    have hn := spelling_nonspace hu hk hw
    rw [trimmed_word u p w s hn.1 hn.2 hs]
    exact (endsWith_iff _ _ _).2 ⟨_, w, rfl, hw⟩

theorem loop_written {u : CharClass} (hu : u.Lawful) (pre : QString) (ws : List Word) (possible : List QString)
    (hsub : ∀ x ∈ possible, x ∈ modifierWords) (hnp : possible.Nodup)
    (hk : ∀ w ∈ ws, w.keyword ∈ possible) (hnd : (ws.map Word.keyword).Nodup)
    (hsp : ∀ w ∈ ws, w.spelling.map u.fold = w.keyword.map u.fold) (hs : ∀ w ∈ ws, ∀ c ∈ w.space, u.isSpace c = true)
    (hmax : ∀ k ∈ possible, k ∉ ws.map Word.keyword → endsWith u (trimmed u pre) k = false) :
    tokenLoop u possible (written pre ws) = ws.map Word.keyword := by
  induction ws generalizing possible with
  | nil =>
    rw [tokenLoop]
    split
    · rfl
    · next k h =>
      have := hmax k (List.mem_of_find?_eq_some h) (by simp)
      have h2 := List.find?_some h
      simp only [written] at h2
      rw [this] at h2; exact absurd h2 (by simp)
  | cons w ws ih =>
    rw [written, loop_step hu hsub (hk w (by simp)) (hsp w (by simp)) (hs w (by simp)), List.map_cons]
    have hnd' := List.nodup_cons.1 (by simpa using hnd : (w.keyword :: ws.map Word.keyword).Nodup)
    rw [ih (possible.erase w.keyword)]
    · intro x hx; exact hsub x (List.mem_of_mem_erase hx)
    · exact hnp.erase _
    · intro w' hw'
      refine (List.Nodup.mem_erase_iff hnp).2 ⟨?_, hk w' (by simp [hw'])⟩
      intro he; exact hnd'.1 (he ▸ List.mem_map_of_mem hw')
    · exact hnd'.2
    · intro w' hw'; exact hsp w' (by simp [hw'])
    · intro w' hw'; exact hs w' (by simp [hw'])
    · intro k hk' hn
      have := (List.Nodup.mem_erase_iff hnp).1 hk'
      refine hmax k this.2 ?_
      simp only [List.map_cons, List.mem_cons, not_or]
      exact ⟨this.1, hn⟩

theorem modifierWords_nodup : modifierWords.Nodup := by decide +kernel
theorem function_not_modifier : (q! "function") ∉ modifierWords := by decide +kernel

theorem getMethodTokens_function {u : CharClass} (hu : u.Lawful) {pre w s : QString}
    (hw : w.map u.fold = (q! "function").map u.fold) (hs : ∀ c ∈ s, u.isSpace c = true) :
    getMethodTokens u (pre ++ w ++ s) = q! "function" :: tokenLoop u modifierWords pre := by
  have hn := spelling_nonspace hu (List.mem_cons_self ..) hw
  have ht := trimmed_word u pre w s hn.1 hn.2 hs
  have hl : w.length = 8 := by simpa using congrArg List.length hw
  unfold getMethodTokens
  rw [ht, if_pos ((endsWith_iff _ _ _).2 ⟨_, w, rfl, hw⟩)]
  have : (pre.dropWhile u.isSpace ++ w).length - 8 = (pre.dropWhile u.isSpace).length := by simp; omega
  rw [this, List.take_left', tokenLoop_ltrim]; rfl

theorem getMethodTokens_no_function {u : CharClass} {t : QString}
    (h : endsWith u (trimmed u t) (q! "function") = false) :
    getMethodTokens u t = tokenLoop u modifierWords t := by
  unfold getMethodTokens
  simp only [h, Bool.false_eq_true, if_false]
  exact tokenLoop_trimmed u _ t

/-! ## Theorems -/

/-- **C36 (the modifiers read from the text).** If the text before the cursor ends with the modifiers `ws` (in
any spelling, separated by any white space) and no other modifier stands before them, then exactly these are
found, the last written first. -/
theorem method_tokens_written {u : CharClass} (hu : u.Lawful) (pre : QString) (ws : List Word)
    (h : AllModifiers u pre ws) : getMethodTokens u (written pre ws) = ws.map Word.keyword := by
  have hmax : ∀ k ∈ modifierWords, k ∉ ws.map Word.keyword → endsWith u (trimmed u pre) k = false := by
    intro k hk hn
    have := h.maximal k (Or.inl hk) hn
    rw [← endsWith_trimmed_iff hu (List.mem_cons_of_mem _ hk)] at this
    simpa using this
  cases ws with
  | nil =>
    have hf : endsWith u (trimmed u pre) (q! "function") = false := by
      have := h.maximal (q! "function") (Or.inr ⟨rfl, rfl⟩) (by simp)
      rw [← endsWith_trimmed_iff hu (List.mem_cons_self ..)] at this
      simpa using this
    rw [written, getMethodTokens_no_function hf]
    have := loop_written hu pre [] modifierWords (fun _ h => h) modifierWords_nodup (by simp) (by simp) (by simp)
      (by simp) hmax
    simpa [written] using this
  | cons w ws =>
    have hnd : w.keyword ∉ ws.map Word.keyword ∧ (ws.map Word.keyword).Nodup := by simpa using h.nodup
    have hh := h.head w (by simp)
    rcases List.mem_cons.1 hh with hf | hm
    · have hsp := h.spelled w (by simp)
      rw [hf] at hsp
      rw [written, getMethodTokens_function hu hsp (h.spaces w (by simp)), List.map_cons, hf]
      congr 1
      refine loop_written hu pre ws modifierWords (fun _ h => h) modifierWords_nodup h.keywords hnd.2
        (fun x hx => h.spelled x (by simp [hx])) (fun x hx => h.spaces x (by simp [hx])) ?_
      intro k hk hn
      refine hmax k hk ?_
      simp only [List.map_cons, List.mem_cons, not_or]
      refine ⟨?_, hn⟩
      rintro rfl
      exact function_not_modifier (hf ▸ hk)
    · have hf : endsWith u (trimmed u (written pre (w :: ws))) (q! "function") = false := by
        cases he : endsWith u (trimmed u (written pre (w :: ws))) (q! "function") with
        | false => rfl
        | true =>
          have he2 : endsWith u (trimmed u (written pre (w :: ws))) w.keyword = true :=
            (endsWith_trimmed_iff hu (List.mem_cons_of_mem _ hm)).2
              ⟨written pre ws, w.spelling, w.space, rfl, h.spelled w (by simp), h.spaces w (by simp)⟩
          have := endsWith_unique hu (List.mem_cons_self ..) (List.mem_cons_of_mem _ hm) he he2
          exact absurd (this ▸ hm) function_not_modifier
      rw [getMethodTokens_no_function hf]
      refine loop_written hu pre (w :: ws) modifierWords (fun _ h => h) modifierWords_nodup ?_ h.nodup h.spelled
        h.spaces hmax
      intro x hx
      rcases List.mem_cons.1 hx with rfl | hx
      · exact hm
      · exact h.keywords x hx

theorem loop_decompose {u : CharClass} (hu : u.Lawful) (possible : List QString) (t : QString)
    (hsub : ∀ x ∈ possible, x ∈ modifierWords) (hnp : possible.Nodup) :
    ∃ pre ws, t = written pre ws ∧ (∀ w ∈ ws, w.keyword ∈ possible) ∧ (ws.map Word.keyword).Nodup ∧
      (∀ w ∈ ws, w.spelling.map u.fold = w.keyword.map u.fold) ∧ (∀ w ∈ ws, ∀ c ∈ w.space, u.isSpace c = true) ∧
      (∀ k ∈ possible, k ∉ ws.map Word.keyword → endsWith u (trimmed u pre) k = false) := by
  induction hn : possible.length generalizing possible t with
  | zero =>
    have : possible = [] := List.length_eq_zero_iff.1 hn
    subst this
    exact ⟨t, [], rfl, by simp, by simp, by simp, by simp, by simp⟩
  | succ n ih =>
    cases hf : possible.find? (fun k => endsWith u (trimmed u t) k) with
    | none =>
      refine ⟨t, [], rfl, by simp, by simp, by simp, by simp, ?_⟩
      intro k hk _
      simpa using List.find?_eq_none.1 hf k hk
    | some k =>
      have hm := List.mem_of_find?_eq_some hf
      obtain ⟨p, w, s, ht, hw, hs⟩ := (endsWith_trimmed_iff hu (List.mem_cons_of_mem _ (hsub k hm))).1 (List.find?_some hf)
      have hl := List.length_pos_of_mem hm
      obtain ⟨pre, ws, h1, h2, h3, h4, h5, h6⟩ := ih (possible.erase k) p
        (fun x hx => hsub x (List.mem_of_mem_erase hx)) (hnp.erase _) (by rw [List.length_erase_of_mem hm]; omega)
      refine ⟨pre, ⟨w, s, k⟩ :: ws, by rw [written, ← h1, ht], ?_, ?_, ?_, ?_, ?_⟩
      · intro x hx
        rcases List.mem_cons.1 hx with rfl | hx
        · exact hm
        · exact List.mem_of_mem_erase (h2 x hx)
      · simp only [List.map_cons, List.nodup_cons]
        refine ⟨?_, h3⟩
        intro hc
        obtain ⟨x, hx, he⟩ := List.mem_map.1 hc
        have := (List.Nodup.mem_erase_iff hnp).1 (h2 x hx)
        exact this.1 he
      · intro x hx
        rcases List.mem_cons.1 hx with rfl | hx
        · exact hw
        · exact h4 x hx
      · intro x hx
        rcases List.mem_cons.1 hx with rfl | hx
        · exact hs
        · exact h5 x hx
      · intro k' hk' hn'
        simp only [List.map_cons, List.mem_cons, not_or] at hn'
        exact h6 k' ((List.Nodup.mem_erase_iff hnp).2 ⟨hn'.1, hk'⟩) hn'.2

/-- Every text has such a reading, so the previous theorem says what is found in every text. -/
theorem every_text_written {u : CharClass} (hu : u.Lawful) (t : QString) :
    ∃ pre ws, t = written pre ws ∧ AllModifiers u pre ws := by
  cases hf : endsWith u (trimmed u t) (q! "function") with
  | false =>
    obtain ⟨pre, ws, h1, h2, h3, h4, h5, h6⟩ := loop_decompose hu modifierWords t (fun _ h => h) modifierWords_nodup
    refine ⟨pre, ws, h1, ⟨h4, h5, h3, fun w hw => h2 w (List.mem_of_mem_tail hw), fun w hw =>
      List.mem_cons_of_mem _ (h2 w (List.mem_of_mem_head? hw)), ?_⟩⟩
    rintro k (hk | ⟨rfl, rfl⟩) hn
    · rw [← endsWith_trimmed_iff hu (List.mem_cons_of_mem _ hk), h6 k hk hn]; simp
    · rw [written] at h1
      rw [← endsWith_trimmed_iff hu (List.mem_cons_self ..), ← h1, hf]; simp
  | true =>
    obtain ⟨p, w, s, ht, hw, hs⟩ := (endsWith_trimmed_iff hu (List.mem_cons_self ..)).1 hf
    obtain ⟨pre, ws, h1, h2, h3, h4, h5, h6⟩ := loop_decompose hu modifierWords p (fun _ h => h) modifierWords_nodup
    refine ⟨pre, ⟨w, s, q! "function"⟩ :: ws, by rw [written, ← h1, ht], ⟨?_, ?_, ?_, h2, by simp, ?_⟩⟩
    · intro x hx
      rcases List.mem_cons.1 hx with rfl | hx
      · exact hw
      · exact h4 x hx
    · intro x hx
      rcases List.mem_cons.1 hx with rfl | hx
      · exact hs
      · exact h5 x hx
    · simp only [List.map_cons, List.nodup_cons]
      refine ⟨?_, h3⟩
      intro hc
      obtain ⟨x, hx, he⟩ := List.mem_map.1 hc
      exact function_not_modifier (he ▸ h2 x hx)
    · rintro k (hk | ⟨_, hc⟩) hn
      · rw [← endsWith_trimmed_iff hu (List.mem_cons_of_mem _ hk),
          h6 k hk (fun hc => hn (by simp only [List.map_cons, List.mem_cons]; exact Or.inr hc))]
        simp
      · exact absurd hc (by simp)

/-- `public STATIC  function ` -/
example : getMethodTokens asciiClass (q! "; public STATIC  function ") = [q! "function", q! "static", q! "public"] := by
  decide +kernel

end KPhp.Completion

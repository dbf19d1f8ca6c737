import Verif.Completion.Implementation
/-!
# The highlighting of an argument list (C91)

Models the `highlighting` of `createArgumentList` (completion/helpers.cpp:31-130): the list of pieces — start, length, format — given to the
editor with the text (completion/item.cpp:150-168).  The types of the arguments are written for every parameter (`phpTypeHinting` is false in this
call).
-/
namespace KPhp.Completion.Highlight
open Impl

/-- A highlighted piece: start, length, and whether it has the format of a parameter. -/
structure Span where
  start : Nat
  length : Nat
  param : Bool
deriving DecidableEq, Repr

/-- The state of the loop: the text, `textFormatStart` and the pieces. -/
structure St where
  ret : QString
  start : Nat
  spans : List Span

/-- helpers.cpp:81-89 and 107-114: a piece for what was written since the last one. -/
def St.mark (s : St) (param : Bool) : St :=
  if s.ret.length ≠ s.start then { s with spans := s.spans ++ [⟨s.start, s.ret.length - s.start, param⟩], start := s.ret.length } else s

/-- A parameter without its default value, helpers.cpp:58-114. -/
def step (types : List (Option ArgType)) (num : Nat) (p : QString) (s : St) : St :=
  let s := if num = 0 then s else { s with ret := s.ret ++ q! ", " }
  let s := s.mark false
  let s := { s with ret := s.ret ++ typeText false types num ++ (36 :: p) }
  s.mark true

/-- The loop over the parameters, helpers.cpp:58-119. -/
def loop (types : List (Option ArgType)) (defaults : List QString) (firstDefault : Int) : List QString → Nat → Nat → St → St
  | [], _, _, s => s
  | p :: ps, num, dn, s =>
    let s := step types num p s
    if (num : Int) ≥ firstDefault then
      let d := defaults.getD dn []
      loop types defaults firstDefault ps (num + 1) (dn + 1) (if d = [] then s else { s with ret := s.ret ++ q! " = " ++ d })
    else loop types defaults firstDefault ps (num + 1) dn s

/-- helpers.cpp:31-130 with highlighting: the text and the pieces.  The last piece is given the length of the whole text (:124). -/
def highlighted (params : List QString) (types : List (Option ArgType)) (defaults : List QString) : QString × List Span :=
  let s := loop types defaults ((params.length : Int) - defaults.length) params 0 0 ⟨q! "(", 0, []⟩
  let s := { s with ret := s.ret ++ q! ")" }
  if s.ret.length ≠ s.start then (s.ret, s.spans ++ [⟨s.start, s.ret.length, false⟩]) else (s.ret, s.spans)

/-! ### Specification -/

/-- The pieces lie one after the other from `a` to `b`, without gap or overlap, none of them empty. -/
inductive Tiles : Nat → List Span → Nat → Prop
  | nil (a : Nat) : Tiles a [] a
  | cons {a b : Nat} {s : Span} {l : List Span} : s.start = a → 0 < s.length → Tiles (a + s.length) l b → Tiles a (s :: l) b

/-- The piece of the text. -/
def Span.of (s : Span) (t : QString) : QString := (t.drop s.start).take s.length

/-! ### proofs -/

theorem Tiles.snoc {a b : Nat} {l : List Span} (h : Tiles a l b) {s : Span} (h1 : s.start = b) (h2 : 0 < s.length) : Tiles a (l ++ [s]) (b + s.length) := by
  induction h with
  | nil a => exact .cons h1 h2 (.nil _)
  | cons e1 e2 _ ih => exact .cons e1 e2 (ih h1)

theorem Tiles.le {a b : Nat} {l : List Span} (h : Tiles a l b) : a ≤ b := by
  induction h with
  | nil => exact Nat.le_refl _
  | cons _ _ _ ih => omega

theorem Tiles.bounds {a b : Nat} {l : List Span} (h : Tiles a l b) : ∀ s ∈ l, s.start + s.length ≤ b := by
  induction h with
  | nil => simp
  | @cons a b s l h1 h2 h3 ih =>
    intro t ht
    simp only [List.mem_cons] at ht
    rcases ht with rfl | ht
    · have := h3.le; omega
    · exact ih t ht

theorem Span.of_append {s : Span} {t r : QString} (h : s.start + s.length ≤ t.length) : s.of (t ++ r) = s.of t := by
  unfold Span.of
  rw [List.drop_append_of_le_length (by omega), List.take_append_of_le_length (by rw [List.length_drop]; omega)]

/-- What holds during the loop: the pieces tile the text up to `start`, and those of the parameters show the parameters. -/
structure Inv (s : St) (shown : List QString) : Prop where
  tiles : Tiles 0 s.spans s.start
  le : s.start ≤ s.ret.length
  texts : (s.spans.filter (·.param)).map (·.of s.ret) = shown

theorem Inv.write {s : St} {shown : List QString} (h : Inv s shown) (t : QString) : Inv { s with ret := s.ret ++ t } shown where
  tiles := h.tiles
  le := by have := h.le; simp; omega
  texts := by
    rw [← h.texts]
    refine List.map_congr_left fun x hx => ?_
    have hb := h.tiles.bounds x (List.mem_filter.mp hx).1
    exact Span.of_append (by have := h.le; omega)

theorem Inv.mark_sep {s : St} {shown : List QString} (h : Inv s shown) : Inv (s.mark false) shown ∧ (s.mark false).ret = s.ret ∧ (s.mark false).start = s.ret.length := by
  unfold St.mark
  have hl := h.le
  split
  · rename_i hne
    refine ⟨⟨?_, Nat.le_refl _, ?_⟩, rfl, rfl⟩
    · have := h.tiles.snoc (s := ⟨s.start, s.ret.length - s.start, false⟩) rfl (by show 0 < s.ret.length - s.start; omega)
      have he : s.start + (s.ret.length - s.start) = s.ret.length := by omega
      simpa [he] using this
    · simp [h.texts]
  · rename_i he
    exact ⟨h, rfl, by omega⟩

theorem Inv.mark_param {s : St} {shown : List QString} (h : Inv s shown) {t : QString} (ht : t ≠ []) {r : QString} (hr : s.ret = r ++ t) (hs : s.start = r.length) :
    Inv (s.mark true) (shown ++ [t]) ∧ (s.mark true).ret = s.ret := by
  have hl : s.ret.length = r.length + t.length := by rw [hr, List.length_append]
  have htl : 0 < t.length := List.length_pos_iff.mpr ht
  unfold St.mark
  rw [if_pos (by omega)]
  refine ⟨⟨?_, Nat.le_refl _, ?_⟩, rfl⟩
  · have := h.tiles.snoc (s := ⟨s.start, s.ret.length - s.start, true⟩) rfl (by show 0 < s.ret.length - s.start; omega)
    have he : s.start + (s.ret.length - s.start) = s.ret.length := by omega
    simpa [he] using this
  · have hof : Span.of ⟨s.start, s.ret.length - s.start, true⟩ s.ret = t := by
      unfold Span.of
      simp only [hs, hr]
      rw [List.drop_left]
      have : (r ++ t).length - r.length = t.length := by simp
      rw [this, List.take_length]
    simp [h.texts, hof]

/-- The parameters with their types, as they are shown. -/
def paramTexts (types : List (Option ArgType)) : Nat → List QString → List QString
  | _, [] => []
  | n, p :: ps => (typeText false types n ++ q! "$" ++ p) :: paramTexts types (n + 1) ps

theorem step_inv (types : List (Option ArgType)) (num : Nat) (p : QString) {s : St} {shown : List QString} (h : Inv s shown) :
    Inv (step types num p s) (shown ++ [typeText false types num ++ q! "$" ++ p])
      ∧ (step types num p s).ret = (if (num == 0) = true then s.ret else s.ret ++ q! ", ") ++ typeText false types num ++ (36 :: p) := by
  obtain ⟨t, ht⟩ : ∃ t, t = (if num = 0 then s else { s with ret := s.ret ++ q! ", " }) := ⟨_, rfl⟩
  have h1 : Inv t shown := by
    rw [ht]
    split
    · exact h
    · exact h.write _
  have hr : t.ret = (if (num == 0) = true then s.ret else s.ret ++ q! ", ") := by
    rw [ht]
    by_cases hn : num = 0 <;> simp [hn]
  obtain ⟨h2, hr2, hs2⟩ := h1.mark_sep
  have h3 := h2.write (typeText false types num ++ (36 :: p))
  obtain ⟨h4, hr4⟩ := h3.mark_param (t := typeText false types num ++ (36 :: p)) (by simp) rfl (by rw [hs2, hr2])
  have he : step types num p s = St.mark { (t.mark false) with ret := (t.mark false).ret ++ (typeText false types num ++ (36 :: p)) } true := by
    simp only [step, ← ht, List.append_assoc]
  rw [he]
  refine ⟨by simpa using h4, ?_⟩
  rw [hr4]
  simp only [hr2, hr, List.append_assoc]

theorem loop_inv (types : List (Option ArgType)) (defaults : List QString) (fd : Int) : ∀ (ps : List QString) (num dn : Nat) (s : St) (shown : List QString),
    Inv s shown → Inv (loop types defaults fd ps num dn s) (shown ++ paramTexts types num ps)
      ∧ (loop types defaults fd ps num dn s).ret = argLoop false types defaults fd ps (num == 0) num dn s.ret
  | [], num, dn, s, shown, h => by simpa [loop, paramTexts, argLoop] using h
  | p :: ps, num, dn, s, shown, h => by
    obtain ⟨h4, hr⟩ := step_inv types num p h
    have hb : ((num + 1 == 0) : Bool) = false := by simp
    have hps : ∀ l : List QString, shown ++ (typeText false types num ++ q! "$" ++ p) :: l = (shown ++ [typeText false types num ++ q! "$" ++ p]) ++ l := by simp
    rw [loop, argLoop, paramTexts, hps]
    simp only
    rw [← hr]
    split
    · by_cases hd : defaults.getD dn [] = []
      · simp only [if_pos hd]
        have ih := loop_inv types defaults fd ps (num + 1) (dn + 1) _ _ h4
        rw [hb] at ih
        exact ih
      · simp only [if_neg hd]
        have h6 := h4.write (q! " = " ++ defaults.getD dn [])
        rw [← List.append_assoc] at h6
        have ih := loop_inv types defaults fd ps (num + 1) (dn + 1) _ _ h6
        rw [hb] at ih
        exact ih
    · have ih := loop_inv types defaults fd ps (num + 1) dn _ _ h4
      rw [hb] at ih
      exact ih

/-- **The pieces but the last lie one after the other from the start of the text without gap or overlap; those with the format of a parameter show exactly the
parameters, with their types, in order; the last piece begins where the others end.**  Its length is that of the whole text instead of the rest. -/
theorem highlighting_partial (params : List QString) (types : List (Option ArgType)) (defaults : List QString) :
    ∃ l b, (highlighted params types defaults).2 = l ++ [⟨b, (highlighted params types defaults).1.length, false⟩]
      ∧ Tiles 0 l b ∧ b < (highlighted params types defaults).1.length
      ∧ ((highlighted params types defaults).2.filter (·.param)).map (·.of (highlighted params types defaults).1) = paramTexts types 0 params := by
  have h0 : Inv ⟨q! "(", 0, []⟩ [] := ⟨.nil 0, by simp, by simp⟩
  have h := (loop_inv types defaults ((params.length : Int) - defaults.length) params 0 0 _ _ h0).1
  have h1 := h.write (q! ")")
  have hle := h.le
  unfold highlighted
  simp only
  rw [if_pos (by simp; omega)]
  refine ⟨_, _, rfl, h1.tiles, by simp; omega, ?_⟩
  simpa using h1.texts

/-- The text is that of `createArgumentList`. -/
theorem highlighted_text (params : List QString) (types : List (Option ArgType)) (defaults : List QString) :
    (highlighted params types defaults).1 = createArgumentList false params types defaults := by
  have h0 : Inv ⟨q! "(", 0, []⟩ [] := ⟨.nil 0, by simp, by simp⟩
  have h := (loop_inv types defaults ((params.length : Int) - defaults.length) params 0 0 _ _ h0).2
  unfold highlighted createArgumentList
  simp only
  split <;> simp only [h] <;> rfl

/-- The last piece reaches behind the end of the text as soon as there is a parameter. -/
theorem last_too_long (p : QString) (ps : List QString) (types : List (Option ArgType)) (defaults : List QString) :
    ∃ s ∈ (highlighted (p :: ps) types defaults).2, (highlighted (p :: ps) types defaults).1.length < s.start + s.length := by
  obtain ⟨l, b, he, ht, _, hf⟩ := highlighting_partial (p :: ps) types defaults
  refine ⟨_, by rw [he]; exact List.mem_append_right _ (List.mem_singleton.mpr rfl), ?_⟩
  simp only
  have hb : 0 < b := by
    cases ht with
    | nil => rw [he] at hf; simp [paramTexts] at hf
    | cons e1 e2 h3 => have := h3.le; omega
  omega

example : highlighted [q! "a", q! "b"] [some (.other (q! "int")), none] [q! "", q! "1"]
    = (q! "(int $a, $b = 1)", [⟨0, 1, false⟩, ⟨1, 6, true⟩, ⟨7, 2, false⟩, ⟨9, 2, true⟩, ⟨11, 16, false⟩]) := by decide +kernel

end KPhp.Completion.Highlight

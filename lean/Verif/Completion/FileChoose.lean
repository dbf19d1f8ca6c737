import Verif.Chars
/-!
# The files offered in an `include` (C77)

Models the file completion of `CodeCompletionContext::completionItems` (completion/context.cpp:1101-1180).

A path is the list of its segments from the root.  Trusted platform behaviour (`KDevelop::Path`): joining a path and a text appends the segments of the text, starts at the root if the text starts with `/`, and removes
`.` and, with the segment before it, `..`.  Of the project model only the folders `itemsForPath` gives for a path are known, with the paths of their files and folders.  Simplified: nobody aborts the completion.
-/
namespace KPhp.FileChoose

abbrev Path := List QString

/-- The parts of a text between the slashes. -/
def split : QString → List QString
  | [] => [[]]
  | c :: s =>
    if c == c! '/' then [] :: split s
    else match split s with
      | x :: xs => (c :: x) :: xs
      | [] => [[c]]

/-- … without the empty ones. -/
def segs (s : QString) : List QString := (split s).filter (· != [])

/-- One step of `cleanPath` of the platform. -/
def step (p : Path) (x : QString) : Path := if x == q! ".." then p.dropLast else if x == q! "." then p else p ++ [x]

/-- `Path(dir, text)` of the platform. -/
def join (dir : Path) (s : QString) : Path :=
  (segs s).foldl step (if s.head? == some (c! '/') then [] else dir)

/-- The directory whose contents are offered (context.cpp:1108-1130): `dir` is the one of the document, `e` the text in the quotation marks, `after` says if it is behind `dirname(__FILE__) .`. -/
def base (dir : Path) (e : QString) (after : Bool) : Path :=
  if !after then
    let path := join dir e
    if e != [] && e.getLast? != some (c! '/') then path.dropLast else path
  else
    let path := if e.head? == some (c! '/') then join dir (e.drop 1) else dir
    if e != [] && e.getLast? != some (c! '/') && e != q! "/" then path.dropLast else path

/-- A folder of the project model. -/
structure Folder where
  files : List Path
  folders : List Path
  hasParent : Bool

/-- `IncludeItem`: the path it stands for, its text, is it a directory. -/
structure Item where
  path : Path
  name : QString
  isDir : Bool
deriving DecidableEq, Repr

/-- The text of an item (context.cpp:1147-1151, 1165-1169). -/
def nameOf (e : QString) (after : Bool) (p : Path) : QString :=
  if after && e.head? != some (c! '/') then c! '/' :: p.getLastD [] else p.getLastD []

/-- The loops over files and folders (context.cpp:1138-1172): the items, and `addedPaths`. -/
def add (e : QString) (after isDir : Bool) : List Path → List Path → List Item × List Path
  | [], added => ([], added)
  | p :: ps, added =>
    if added.contains p then add e after isDir ps added
    else
      let r := add e after isDir ps (added ++ [p])
      (⟨p, nameOf e after p, isDir⟩ :: r.1, r.2)

/-- The loop over the items of the path (context.cpp:1134-1181); `none` is an item that is no folder. -/
def offer (b : Path) (e : QString) (after : Bool) : List (Option Folder) → List Path → List Item
  | [], _ => []
  | none :: _, _ => []
  | some f :: fs, added =>
    let r1 := add e after false f.files added
    let r2 := add e after true f.folders r1.2
    r1.1 ++ r2.1 ++ (if !f.hasParent && e == [] then [⟨b.dropLast, q! "..", true⟩] else []) ++ offer b e after fs r2.2

/-- File completion (context.cpp:1101-1184). -/
def fileItems (model : Path → List (Option Folder)) (dir : Path) (e : QString) (after : Bool) : List Item :=
  offer (base dir e after) e after (model (base dir e after)) []

/-! ### Specification -/

/-- A name of a file or folder. -/
def Name (n : QString) : Prop := n ≠ [] ∧ c! '/' ∉ n ∧ n ≠ q! "." ∧ n ≠ q! ".."

/-- The part of a text up to its last slash: empty, or with a slash at the end. -/
def DirText (d : QString) : Prop := d = [] ∨ ∃ x, d = x ++ q! "/"

/-- The file a text denotes for PHP, seen from a directory: `/x` from the root, `x/y` from the directory, `.` and `..` as usual. -/
inductive Denotes : Path → QString → Path → Prop
  | nil {p} : Denotes p [] p
  | slash {p s r} : Denotes p s r → Denotes p (c! '/' :: s) r
  | name {p n s r} : Name n → (s = [] ∨ s.head? = some (c! '/')) → Denotes (p ++ [n]) s r → Denotes p (n ++ s) r
  | dot {p s r} : (s = [] ∨ s.head? = some (c! '/')) → Denotes p s r → Denotes p (q! "." ++ s) r
  | up {p s r} : (s = [] ∨ s.head? = some (c! '/')) → Denotes p.dropLast s r → Denotes p (q! ".." ++ s) r

/-- The text of an `include`, seen from the directory of the document. -/
def Includes (dir : Path) (s : QString) (p : Path) : Prop :=
  (s.head? = some (c! '/') ∧ Denotes [] s p) ∨ (s.head? ≠ some (c! '/') ∧ Denotes dir s p)

/-! ### Paths -/

theorem split_ne_nil (s : QString) : split s ≠ [] := by
  cases s with
  | nil => simp [split]
  | cons c s =>
    unfold split
    split
    · simp
    · split <;> simp

theorem split_slash (a b : QString) : split (a ++ c! '/' :: b) = split a ++ split b := by
  induction a with
  | nil => simp [split]
  | cons c a ih =>
    rw [List.cons_append]
    by_cases hc : c = c! '/'
    · subst hc; simp [split, ih]
    · have hc' : (c == c! '/') = false := by simpa using hc
      have e : ∀ t, split (c :: t) = (match split t with | x :: xs => (c :: x) :: xs | [] => [[c]]) := by
        intro t; rw [split, hc']; rfl
      rw [e, e, ih]
      cases hs : split a with
      | nil => exact absurd hs (split_ne_nil a)
      | cons x xs => simp

theorem segs_slash (a b : QString) : segs (a ++ c! '/' :: b) = segs a ++ segs b := by simp [segs, split_slash]

theorem split_name {n : QString} (h : c! '/' ∉ n) : split n = [n] := by
  induction n with
  | nil => rfl
  | cons c n ih =>
    simp only [List.mem_cons, not_or] at h
    have hc' : (c == c! '/') = false := by simpa using Ne.symm h.1
    unfold split
    rw [hc', ih h.2]; rfl

theorem segs_name {n : QString} (h : c! '/' ∉ n) (hn : n ≠ []) : segs n = [n] := by simp [segs, split_name h, hn]

theorem segs_nil : segs [] = [] := rfl

theorem segs_cons_slash (s : QString) : segs (c! '/' :: s) = segs s := segs_slash [] s

theorem segs_dir {d w : QString} (hd : DirText d) : segs (d ++ w) = segs d ++ segs w := by
  rcases hd with rfl | ⟨x, rfl⟩
  · simp [segs_nil]
  · have : x ++ q! "/" ++ w = x ++ c! '/' :: w := by simp
    rw [this, segs_slash]
    have := segs_slash x []
    rw [segs_nil, List.append_nil] at this
    rw [this]

theorem segs_head {n s : QString} (h : c! '/' ∉ n) (hn : n ≠ []) (hs : s = [] ∨ s.head? = some (c! '/')) : segs (n ++ s) = n :: segs s := by
  rcases hs with rfl | hs
  · rw [List.append_nil, segs_name h hn]; rfl
  · rcases s with _ | ⟨c, s⟩
    · simp at hs
    · simp at hs; subst hs
      rw [segs_slash, segs_name h hn, segs_cons_slash]; rfl

/-- The model of the platform's paths does what PHP does. -/
theorem denotes_iff {p r : Path} {s : QString} : Denotes p s r ↔ (segs s).foldl step p = r := by
  constructor
  · intro h
    induction h with
    | nil => rfl
    | slash _ ih => rw [segs_cons_slash]; exact ih
    | name hn hs _ ih =>
      rw [segs_head hn.2.1 hn.1 hs, List.foldl_cons]
      rw [show ∀ (q : Path) (n : QString), Name n → step q n = q ++ [n] from fun q n hn => by
        simp [step, hn.2.2.1, hn.2.2.2]]
      · exact ih
      · exact hn
    | dot hs _ ih => rw [segs_head (by decide) (by decide) hs]; exact ih
    | up hs _ ih => rw [segs_head (by decide) (by decide) hs]; exact ih
  · intro h
    induction hl : s.length using Nat.strongRecOn generalizing s p with
    | ind l ih =>
      rcases s with _ | ⟨c, s⟩
      · rw [segs_nil] at h; subst h; exact .nil
      · by_cases hc : c = c! '/'
        · subst hc
          rw [segs_cons_slash] at h
          exact .slash (ih s.length (by simp at hl; omega) h rfl)
        · have hsplit : ∃ n t, c :: s = n ++ t ∧ c! '/' ∉ n ∧ n ≠ [] ∧ (t = [] ∨ t.head? = some (c! '/')) := by
            refine ⟨(c :: s).takeWhile (· != c! '/'), (c :: s).dropWhile (· != c! '/'), List.takeWhile_append_dropWhile.symm, ?_, ?_, ?_⟩
            · intro hm
              have := List.all_eq_true.1 (List.all_takeWhile (p := (· != c! '/')) (l := c :: s)) _ hm
              simp at this
            · simp [hc]
            · have := List.head?_dropWhile_not (· != c! '/') (c :: s)
              cases hh : ((c :: s).dropWhile (· != c! '/')).head? with
              | none => left; simpa using hh
              | some x => rw [hh] at this; right; simpa using this
          obtain ⟨n, t, e, h1, h2, h3⟩ := hsplit
          rw [e] at h hl ⊢
          rw [segs_head h1 h2 h3, List.foldl_cons] at h
          have hlt : t.length < l := by
            have : n.length ≠ 0 := by simpa using h2
            simp at hl; omega
          have ih' := fun p' (hp : (segs t).foldl step p' = r) => ih t.length hlt (s := t) (p := p') hp rfl
          by_cases hd : n = q! "."
          · subst hd; exact .dot h3 (ih' _ h)
          · by_cases hu : n = q! ".."
            · subst hu; exact .up h3 (ih' _ h)
            · refine .name ⟨h2, h1, hd, hu⟩ h3 (ih' _ ?_)
              simpa [step, hd, hu] using h

theorem includes_iff {dir p : Path} {s : QString} : Includes dir s p ↔ join dir s = p := by
  unfold Includes join
  by_cases h : s.head? = some (c! '/')
  · simp [h, denotes_iff]
  · have : (s.head? == some (c! '/')) = false := by simpa using h
    simp [h, this, denotes_iff]

/-! ### The directory -/

theorem join_name {dir : Path} {d n : QString} (hd : DirText d) (hn : c! '/' ∉ n) (hn' : n ≠ []) : join dir (d ++ n) = step (join dir d) n := by
  unfold join
  have hh : ((d ++ n).head? == some (c! '/')) = (d.head? == some (c! '/')) := by
    rcases hd with rfl | ⟨x, rfl⟩
    · rcases n with _ | ⟨c, n⟩
      · rfl
      · simp only [List.mem_cons, not_or] at hn
        have : (some c == some (c! '/')) = false := by simpa using Ne.symm hn.1
        simp only [List.nil_append, List.head?_cons, List.head?_nil, this]; rfl
    · rcases x with _ | ⟨c, x⟩ <;> simp
  rw [hh, segs_dir hd, segs_name hn hn', List.foldl_append]
  rfl

theorem step_name {p : Path} {n : QString} (h : Name n) : step p n = p ++ [n] := by simp [step, h.2.2.1, h.2.2.2]

theorem getLast_dir {d w : QString} (hd : DirText d) (hw : c! '/' ∉ w) :
    (d ++ w != [] && (d ++ w).getLast? != some (c! '/')) = (w != []) := by
  rcases w with _ | ⟨c, w⟩
  · rcases hd with rfl | ⟨x, rfl⟩ <;> simp
  · have hl : (d ++ c :: w).getLast? = (c :: w).getLast? := by
      rw [List.getLast?_append]; simp [List.getLast?_cons]
    rw [hl]
    have : (c :: w).getLast? ≠ some (c! '/') := by
      intro hx
      exact hw (List.mem_of_getLast? hx)
    have h2 : ((c :: w).getLast? != some (c! '/')) = true := by rw [bne_iff_ne]; exact this
    have h3 : (d ++ c :: w != []) = true := by rw [bne_iff_ne]; simp
    rw [h2, h3]; rfl

theorem base_plain {dir : Path} {d w : QString} (hd : DirText d) (hw : c! '/' ∉ w) (h1 : w ≠ q! ".") (h2 : w ≠ q! "..") :
    base dir (d ++ w) false = join dir d := by
  unfold base
  simp only [Bool.not_false, if_true]
  rw [getLast_dir hd hw]
  by_cases hn : w = []
  · subst hn; simp
  · have : (w != []) = true := by simpa using hn
    rw [this, if_pos rfl, join_name hd hw hn, step_name ⟨hn, hw, h1, h2⟩]
    simp

/-- **C77.**  The directory offered is the one the text up to its last slash denotes. -/
theorem offered_directory (dir : Path) (d w : QString) (hd : DirText d) (hw : c! '/' ∉ w) (h1 : w ≠ q! ".") (h2 : w ≠ q! "..") :
    Includes dir d (base dir (d ++ w) false) := by
  rw [base_plain hd hw h1 h2]; exact includes_iff.2 rfl

theorem base_after {dir : Path} {d w : QString} (hd : DirText d) (hw : c! '/' ∉ w) (h1 : w ≠ q! ".") (h2 : w ≠ q! "..") :
    base dir (q! "/" ++ (d ++ w)) true = join dir d := by
  have hd' : DirText (q! "/" ++ d) := by
    rcases hd with rfl | ⟨x, rfl⟩
    · exact Or.inr ⟨[], rfl⟩
    · exact Or.inr ⟨q! "/" ++ x, by simp⟩
  have hg := getLast_dir hd' hw
  unfold base
  simp only [Bool.not_true, Bool.false_eq_true, if_false, List.append_assoc] at hg ⊢
  rw [hg]
  have hj : (if ((q! "/" ++ (d ++ w)).head? == some (c! '/')) = true then join dir ((q! "/" ++ (d ++ w)).drop 1) else dir) = join dir (d ++ w) := by simp
  rw [hj]
  by_cases hn : w = []
  · subst hn; simp
  · have h3 : (w != [] && q! "/" ++ (d ++ w) != q! "/") = true := by
      have : d ++ w ≠ [] := by simp [hn]
      simp [hn]
    rw [h3, if_pos rfl, join_name hd hw hn, step_name ⟨hn, hw, h1, h2⟩]
    simp

theorem base_after_nil (dir : Path) : base dir [] true = dir := rfl

/-! ### The items -/

theorem add_spec (e : QString) (after isDir : Bool) : ∀ (ps added : List Path),
    (∀ it, it ∈ (add e after isDir ps added).1 ↔ it.path ∈ ps ∧ it.path ∉ added ∧ it.name = nameOf e after it.path ∧ it.isDir = isDir) ∧
    (∀ p, p ∈ (add e after isDir ps added).2 ↔ p ∈ added ∨ p ∈ ps) ∧
    ((add e after isDir ps added).1.map (·.path)).Nodup
  | [], added => by simp [add]
  | p :: ps, added => by
    by_cases hp : p ∈ added
    · have ih := add_spec e after isDir ps added
      have : add e after isDir (p :: ps) added = add e after isDir ps added := by simp [add, hp]
      rw [this]
      refine ⟨?_, ?_, ih.2.2⟩
      · intro it
        rw [ih.1]
        constructor
        · rintro ⟨a, b, c⟩; exact ⟨by simp [a], b, c⟩
        · rintro ⟨a, b, c⟩
          simp only [List.mem_cons] at a
          rcases a with a | a
          · rw [a] at b; exact absurd hp b
          · exact ⟨a, b, c⟩
      · intro q
        rw [ih.2.1]
        simp only [List.mem_cons]
        constructor
        · rintro (h | h)
          · exact Or.inl h
          · exact Or.inr (Or.inr h)
        · rintro (h | rfl | h)
          · exact Or.inl h
          · exact Or.inl hp
          · exact Or.inr h
    · have ih := add_spec e after isDir ps (added ++ [p])
      have : add e after isDir (p :: ps) added =
          (⟨p, nameOf e after p, isDir⟩ :: (add e after isDir ps (added ++ [p])).1, (add e after isDir ps (added ++ [p])).2) := by
        simp [add, hp]
      rw [this]
      refine ⟨?_, ?_, ?_⟩
      · rintro ⟨ip, iname, idir⟩
        simp only [List.mem_cons, ih.1, List.mem_append, List.not_mem_nil, or_false, not_or, Item.mk.injEq]
        constructor
        · rintro (⟨rfl, rfl, rfl⟩ | ⟨a, ⟨b, b'⟩, c⟩)
          · exact ⟨Or.inl rfl, hp, rfl, rfl⟩
          · exact ⟨Or.inr a, b, c⟩
        · rintro ⟨a, b, rfl, rfl⟩
          by_cases hx : ip = p
          · subst hx; exact Or.inl ⟨rfl, rfl, rfl⟩
          · rcases a with a | a
            · exact absurd a hx
            · exact Or.inr ⟨a, ⟨b, hx⟩, rfl, rfl⟩
      · intro q
        rw [ih.2.1]
        simp only [List.mem_append, List.mem_cons, List.not_mem_nil, or_false]
        constructor
        · rintro ((h | h) | h)
          · exact Or.inl h
          · exact Or.inr (Or.inl h)
          · exact Or.inr (Or.inr h)
        · rintro (h | h | h)
          · exact Or.inl (Or.inl h)
          · exact Or.inl (Or.inr h)
          · exact Or.inr h
      · simp only [List.map_cons, List.nodup_cons]
        refine ⟨?_, ih.2.2⟩
        simp only [List.mem_map, not_exists, not_and]
        rintro it hit rfl
        exact ((ih.1 it).1 hit).2.1 (by simp)

/-- The folder has the file or folder. -/
def Folder.Has (f : Folder) (isDir : Bool) (p : Path) : Prop := if isDir = true then p ∈ f.folders else p ∈ f.files

/-- No path is that of a file and of a folder. -/
def Consistent (fs : List Folder) : Prop := ∀ f ∈ fs, ∀ g ∈ fs, ∀ p ∈ f.files, p ∉ g.folders

/-- The first folder that has the path at all decides if it is a file. -/
def First (p : Path) (isDir : Bool) : List Folder → Prop
  | [] => False
  | f :: fs => (p ∈ f.files ∧ isDir = false) ∨ (p ∉ f.files ∧ p ∈ f.folders ∧ isDir = true) ∨ (p ∉ f.files ∧ p ∉ f.folders ∧ First p isDir fs)

theorem offer_spec (b : Path) (e : QString) (after : Bool) : ∀ (fs : List Folder) (added : List Path) (it : Item),
    it ∈ offer b e after (fs.map some) added ↔
      (it.path ∉ added ∧ it.name = nameOf e after it.path ∧ First it.path it.isDir fs) ∨
      (it = ⟨b.dropLast, q! "..", true⟩ ∧ e = [] ∧ ∃ f ∈ fs, f.hasParent = false)
  | [], added, it => by simp [offer, First]
  | f :: fs, added, it => by
    have ih := offer_spec b e after fs (add e after true f.folders (add e after false f.files added).2).2 it
    have a1 := (add_spec e after false f.files added).1 it
    have a2 := (add_spec e after true f.folders (add e after false f.files added).2).1 it
    have m1 := (add_spec e after false f.files added).2.1
    have m2 := (add_spec e after true f.folders (add e after false f.files added).2).2.1
    rw [List.map_cons, offer]
    simp only [List.mem_append, ih, a1, a2, m1, m2, not_or, First]
    have hup : it ∈ (if (!f.hasParent && e == []) = true then [(⟨b.dropLast, q! "..", true⟩ : Item)] else []) ↔
        it = ⟨b.dropLast, q! "..", true⟩ ∧ e = [] ∧ f.hasParent = false := by
      by_cases h1 : e = [] <;> cases h2 : f.hasParent <;> simp [h1]
    rw [hup]
    constructor
    · rintro (((⟨a, b, c, d⟩ | ⟨a, ⟨b, b'⟩, c, d⟩) | ⟨a, b, c⟩) | ⟨⟨⟨a, a'⟩, a''⟩, b, c⟩ | ⟨a, b, g, hg, c⟩)
      · exact Or.inl ⟨b, c, Or.inl ⟨a, d⟩⟩
      · exact Or.inl ⟨b, c, Or.inr (Or.inl ⟨b', a, d⟩)⟩
      · exact Or.inr ⟨a, b, f, by simp, c⟩
      · exact Or.inl ⟨a, b, Or.inr (Or.inr ⟨a', a'', c⟩)⟩
      · exact Or.inr ⟨a, b, g, by simp [hg], c⟩
    · rintro (⟨a, b, ⟨c, d⟩ | ⟨c, c', d⟩ | ⟨c, c', d⟩⟩ | ⟨a, b, g, hg, c⟩)
      · exact Or.inl (Or.inl (Or.inl ⟨c, a, b, d⟩))
      · exact Or.inl (Or.inl (Or.inr ⟨c', ⟨a, c⟩, b, d⟩))
      · exact Or.inr (Or.inl ⟨⟨⟨a, c⟩, c'⟩, b, d⟩)
      · simp only [List.mem_cons] at hg
        rcases hg with rfl | hg
        · exact Or.inl (Or.inr ⟨a, b, c⟩)
        · exact Or.inr (Or.inr ⟨a, b, g, hg, c⟩)

theorem first_iff {p : Path} {isDir : Bool} : ∀ {fs : List Folder}, Consistent fs → (First p isDir fs ↔ ∃ f ∈ fs, f.Has isDir p)
  | [], _ => by simp [First]
  | f :: fs, hc => by
    have hc' : Consistent fs := fun g hg k hk => hc g (by simp [hg]) k (by simp [hk])
    have ih := @first_iff p isDir fs hc'
    simp only [First, ih, List.mem_cons, exists_eq_or_imp]
    have hx : ∀ g ∈ fs, p ∈ f.files → p ∉ g.folders := fun g hg h => hc f (by simp) g (by simp [hg]) p h
    have hy : ∀ g ∈ fs, p ∈ g.files → p ∉ f.folders := fun g hg h => hc g (by simp [hg]) f (by simp) p h
    have hz : p ∈ f.files → p ∉ f.folders := fun h => hc f (by simp) f (by simp) p h
    cases isDir
    · simp only [Folder.Has, Bool.false_eq_true, if_false, and_true, and_false, false_or]
      constructor
      · rintro (h | ⟨-, -, h⟩)
        · exact Or.inl h
        · exact Or.inr h
      · rintro (h | ⟨g, hg, h⟩)
        · exact Or.inl h
        · by_cases hf : p ∈ f.files
          · exact Or.inl hf
          · exact Or.inr ⟨hf, hy g hg h, g, hg, h⟩
    · simp only [Folder.Has, if_true, Bool.true_eq_false, and_false, and_true, false_or]
      constructor
      · rintro (⟨-, h⟩ | ⟨-, -, h⟩)
        · exact Or.inl h
        · exact Or.inr h
      · rintro (h | ⟨g, hg, h⟩)
        · exact Or.inl ⟨fun h' => hz h' h, h⟩
        · by_cases hf : p ∈ f.folders
          · exact Or.inl ⟨fun h' => hz h' hf, hf⟩
          · exact Or.inr ⟨fun h' => hx g hg h' h, hf, g, hg, h⟩

/-- **C77.**  Exactly the files and folders the projects have in the directory are offered; `..` besides, where nothing is typed yet, if the directory is the root of a project. -/
theorem offered_iff (model : Path → List (Option Folder)) (dir : Path) (e : QString) (after : Bool) (fs : List Folder)
    (hm : model (base dir e after) = fs.map some) (hc : Consistent fs) (it : Item) :
    it ∈ fileItems model dir e after ↔
      (it.name = nameOf e after it.path ∧ ∃ f ∈ fs, f.Has it.isDir it.path) ∨
      (it = ⟨(base dir e after).dropLast, q! "..", true⟩ ∧ e = [] ∧ ∃ f ∈ fs, f.hasParent = false) := by
  unfold fileItems
  rw [hm, offer_spec, first_iff hc]
  simp

theorem offer_paths (b : Path) (e : QString) (after : Bool) : ∀ (fs : List (Option Folder)) (added : List Path),
    (((offer b e after fs added).filter (fun it => it.name != q! "..")).map (·.path)).Nodup ∧
    ∀ it ∈ offer b e after fs added, it.name ≠ q! ".." → it.path ∉ added
  | [], added => by simp [offer]
  | none :: _, added => by simp [offer]
  | some f :: fs, added => by
    have a1 := add_spec e after false f.files added
    have a2 := add_spec e after true f.folders (add e after false f.files added).2
    have ih := offer_paths b e after fs (add e after true f.folders (add e after false f.files added).2).2
    have hup : (if (!f.hasParent && e == []) = true then [(⟨b.dropLast, q! "..", true⟩ : Item)] else []).filter (fun it => it.name != q! "..") = [] := by
      split <;> simp
    rw [offer]
    constructor
    · simp only [List.filter_append, List.map_append, hup, List.append_nil]
      rw [List.nodup_append, List.nodup_append]
      have n1 := a1.2.2
      have n2 := a2.2.2
      refine ⟨⟨?_, ?_, ?_⟩, ih.1, ?_⟩
      · exact List.Nodup.sublist (List.Sublist.map _ List.filter_sublist) n1
      · exact List.Nodup.sublist (List.Sublist.map _ List.filter_sublist) n2
      · intro x hx y hy
        simp only [List.mem_map, List.mem_filter] at hx hy
        obtain ⟨i, ⟨hi, -⟩, rfl⟩ := hx
        obtain ⟨j, ⟨hj, -⟩, rfl⟩ := hy
        intro heq
        have h1 := ((a1.1 i).1 hi).1
        have h2 := ((a2.1 j).1 hj).2.1
        rw [a1.2.1, not_or] at h2
        exact h2.2 (heq ▸ h1)
      · intro x hx y hy
        simp only [List.mem_append, List.mem_map, List.mem_filter] at hx hy
        obtain ⟨j, ⟨hj, hj'⟩, rfl⟩ := hy
        have hj2 := ih.2 j hj (by simpa using hj')
        rw [a2.2.1, not_or, a1.2.1, not_or] at hj2
        intro heq
        rcases hx with ⟨i, ⟨hi, -⟩, rfl⟩ | ⟨i, ⟨hi, -⟩, rfl⟩
        · exact hj2.1.2 (heq ▸ ((a1.1 i).1 hi).1)
        · exact hj2.2 (heq ▸ ((a2.1 i).1 hi).1)
    · intro it hit hn
      simp only [List.mem_append] at hit
      rcases hit with ((h | h) | h) | h
      · exact ((a1.1 it).1 h).2.1
      · have := ((a2.1 it).1 h).2.1
        rw [a1.2.1, not_or] at this
        exact this.1
      · split at h
        · simp at h; subst h; exact absurd rfl hn
        · cases h
      · have := ih.2 it h hn
        rw [a2.2.1, not_or, a1.2.1, not_or] at this
        exact this.1.1

/-- **C77.**  No file or folder is offered twice, however many projects have it. -/
theorem offered_once (model : Path → List (Option Folder)) (dir : Path) (e : QString) (after : Bool) :
    (((fileItems model dir e after).filter (fun it => it.name != q! "..")).map (·.path)).Nodup := (offer_paths _ _ _ _ _).1

/-- **C77.**  The text with the chosen name instead of the part behind the last slash includes the file that was chosen. -/
theorem chosen_included (model : Path → List (Option Folder)) (dir : Path) (d w : QString) (fs : List Folder) (hd : DirText d) (hw : c! '/' ∉ w)
    (h1 : w ≠ q! ".") (h2 : w ≠ q! "..") (hm : model (base dir (d ++ w) false) = fs.map some) (hc : Consistent fs)
    (hin : ∀ f ∈ fs, ∀ b p, f.Has b p → ∃ n, Name n ∧ p = base dir (d ++ w) false ++ [n])
    (it : Item) (hit : it ∈ fileItems model dir (d ++ w) false) : Includes dir (d ++ it.name) it.path := by
  rw [includes_iff]
  rw [offered_iff model dir (d ++ w) false fs hm hc] at hit
  rw [base_plain hd hw h1 h2] at hin
  rw [base_plain hd hw h1 h2] at hit
  rcases hit with ⟨hn, f, hf, hh⟩ | ⟨rfl, he, -⟩
  · obtain ⟨n, hname, hp⟩ := hin f hf _ _ hh
    have : it.name = n := by rw [hn, hp]; simp [nameOf]
    rw [this, join_name hd hname.2.1 hname.1, step_name hname, hp]
  · have hd0 : d = [] := by simp at he; exact he.1
    subst hd0
    have := join_name (dir := dir) hd (n := q! "..") (by decide) (by decide)
    simp only [this]
    simp [step]

/-- **C77.**  Behind `dirname(__FILE__) .` with nothing typed, or a text with `/` in front, likewise: the name of the directory of the document followed by the text is the name of the chosen file. -/
theorem chosen_included_dirname (model : Path → List (Option Folder)) (dir : Path) (dirText e d w : QString) (fs : List Folder)
    (hdir : dirText.head? = some (c! '/') ∧ Denotes [] dirText dir)
    (he : (e = [] ∧ d = [] ∧ w = []) ∨ e = q! "/" ++ (d ++ w)) (hd : DirText d) (hd' : d.head? ≠ some (c! '/')) (hw : c! '/' ∉ w) (h1 : w ≠ q! ".") (h2 : w ≠ q! "..")
    (hm : model (base dir e true) = fs.map some) (hc : Consistent fs)
    (hin : ∀ f ∈ fs, ∀ b p, f.Has b p → ∃ n, Name n ∧ p = base dir e true ++ [n])
    (it : Item) (hit : it ∈ fileItems model dir e true) (hup : it.name ≠ q! "..") :
    Includes dir (dirText ++ (if e = [] then [] else q! "/" ++ d) ++ it.name) it.path := by
  have hb : base dir e true = join dir d := by
    rcases he with ⟨rfl, rfl, rfl⟩ | rfl
    · rfl
    · exact base_after hd hw h1 h2
  rw [offered_iff model dir e true fs hm hc] at hit
  rw [hb] at hin
  rcases hit with ⟨hn, f, hf, hh⟩ | ⟨rfl, -, -⟩
  · obtain ⟨n, hname, hp⟩ := hin f hf _ _ hh
    have htext : (if e = [] then [] else q! "/" ++ d) ++ it.name = c! '/' :: (d ++ n) := by
      rw [hn, hp]
      rcases he with ⟨rfl, rfl, rfl⟩ | rfl <;> simp [nameOf]
    rw [List.append_assoc, htext, includes_iff]
    unfold join
    have hh : (dirText ++ c! '/' :: (d ++ n)).head? = some (c! '/') := by
      rcases dirText with _ | ⟨c, t⟩
      · rfl
      · simpa using hdir.1
    rw [hh]
    simp only [beq_self_eq_true, if_true]
    rw [segs_slash, List.foldl_append, denotes_iff.1 hdir.2]
    rw [segs_dir hd, segs_name hname.2.1 hname.1, List.foldl_append, hp]
    unfold join
    have : (d.head? == some (c! '/')) = false := by simpa using hd'
    rw [this]
    simp only [Bool.false_eq_true, if_false, List.foldl_cons, List.foldl_nil]
    exact step_name hname
  · exact absurd rfl hup

/-! ### Examples and findings -/

def exDir : Path := [q! "p", q! "src"]
def exModel (p : Path) : List (Option Folder) :=
  if p = exDir then [some ⟨[exDir ++ [q! "a.php"], exDir ++ [q! "b.php"]], [exDir ++ [q! "lib"]], true⟩, some ⟨[exDir ++ [q! "a.php"]], [], false⟩]
  else if p = exDir ++ [q! "lib"] then [some ⟨[exDir ++ [q! "lib", q! "c.php"]], [], true⟩]
  else if p = [q! "p"] then [some ⟨[[q! "p", q! "main.php"]], [exDir], true⟩] else []

example : (fileItems exModel exDir [] false).map (fun it => (it.name, it.isDir)) =
    [(q! "a.php", false), (q! "b.php", false), (q! "lib", true), (q! "..", true)] := by decide +kernel
example : (fileItems exModel exDir (q! "lib/x") false).map (·.name) = [q! "c.php"] ∧ (fileItems exModel exDir (q! "../") false).map (·.name) = [q! "main.php", q! "src"] ∧
    (fileItems exModel exDir (q! "") true).map (·.name) = [q! "/a.php", q! "/b.php", q! "/lib", q! ".."] ∧
    (fileItems exModel exDir (q! "/lib/") true).map (·.name) = [q! "c.php"] := by decide +kernel
example : Includes exDir (q! "../src/lib/c.php") (exDir ++ [q! "lib", q! "c.php"]) := includes_iff.2 (by decide +kernel)
example : Consistent [⟨[exDir ++ [q! "a.php"]], [exDir ++ [q! "lib"]], true⟩] := by
  intro f hf g hg p hp
  simp at hf hg; subst hf hg
  simp at hp; subst hp
  decide

/-- Finding: at `include '..` the contents of the directory above the one above are offered. -/
theorem two_dots_finding (dir : Path) : base dir (q! "..") false = dir.dropLast.dropLast := by
  have : join dir (q! "..") = dir.dropLast := by simp [join, segs, split, step]
  simp [base, this]

/-- Finding: behind `dirname(__FILE__) . 'x` (without `/`), where PHP appends to the name of the directory, the siblings of the directory are offered, with `/` in front. -/
theorem no_slash_finding (dir : Path) (e : QString) (h : e ≠ []) (h1 : e.head? ≠ some (c! '/')) (h2 : e.getLast? ≠ some (c! '/')) (p : Path) :
    base dir e true = dir.dropLast ∧ nameOf e true p = c! '/' :: p.getLastD [] := by
  have h1' : (e.head? == some (c! '/')) = false := by simpa using h1
  have h3 : e ≠ q! "/" := by rintro rfl; exact h1 rfl
  constructor
  · simp [base, h, h1, h2, h3]
  · simp [nameOf, h1]

/-- Finding: behind `dirname(__FILE__) . '` the text `..` is offered without `/`. -/
theorem parent_without_slash_finding (model : Path → List (Option Folder)) (dir : Path) (fs : List Folder) (hm : model dir = fs.map some) (hc : Consistent fs)
    (h : ∃ f ∈ fs, f.hasParent = false) : ⟨dir.dropLast, q! "..", true⟩ ∈ fileItems model dir [] true :=
  (offered_iff model dir [] true fs hm hc _).2 (Or.inr ⟨rfl, rfl, h⟩)

/-- Finding: `..` is offered once for each project of which the directory is the root. -/
theorem parent_twice_finding : (fileItems (fun _ => [some ⟨[], [], false⟩, some ⟨[], [], false⟩]) exDir [] false).map (·.name) = [q! "..", q! ".."] := by decide +kernel

end KPhp.FileChoose

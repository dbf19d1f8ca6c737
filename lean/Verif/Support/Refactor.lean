import Verif.Chars
/-!
# Renaming (C39)

Models codegen/refactoring.cpp.  `DocumentChangeSet::addChange` (KDevPlatform) is a parameter: it gets the changes collected so far
and says whether it accepts the next one.  The mapping of ranges to the current revision of the document is a parameter too.
-/
namespace KPhp.Refactor

/-- A position in a document. -/
structure Pos where
  line : Int
  column : Int
deriving DecidableEq, Repr

/-- A range. -/
structure Range where
  start : Pos
  stop : Pos
deriving DecidableEq, Repr

/-- `KDevelop::Use` -/
structure Use where
  decl : Int
  range : Range
deriving DecidableEq, Repr

/-- A context with its uses and child contexts (`DUContext::uses`, `childContexts`). -/
inductive Ctx where
  | node (uses : List Use) (children : List Ctx)

/-- `DocumentChange(url, range, oldText, newText)`; the document is the same for all contexts of a tree. -/
structure Change where
  range : Range
  old : QString
  new : QString
deriving DecidableEq, Repr

/-- `std::numeric_limits<int>::max()`: the declaration is not used in the file -/
def intMax : Int := 2147483647

/-- `RangeInRevision::isEmpty` -/
def isEmpty (r : Range) : Bool := r.start == r.stop

/-- codegen/refactoring.cpp:101-117 (both overloads; `columnWidth` is the difference of the columns) -/
def shouldRemoveDollar (r : Range) (name : QString) : Bool :=
  if r.start.line ≠ r.stop.line then false else r.stop.column - r.start.column == name.length + 1

/-- codegen/refactoring.cpp:49-52 and 86-93 -/
def trimmed (r : Range) (name : QString) : Range :=
  if shouldRemoveDollar r name then ⟨⟨r.start.line, r.start.column + 1⟩, r.stop⟩ else r

section
variable {σ : Type} (add : σ → Change → σ × Bool)

/-- codegen/refactoring.cpp:41-58: the loop over the uses of a context; the flag tells success -/
def applyUses (cur : Range → Range) (old new : QString) (index : Int) : List Use → σ → σ × Bool
  | [], s => (s, true)
  | u :: us, s =>
    if u.decl ≠ index then applyUses cur old new index us s
    else if isEmpty u.range then applyUses cur old new index us s
    else
      let r := add s ⟨cur (trimmed u.range old), old, new⟩
      if r.2 then applyUses cur old new index us r.1 else r

mutual
/-- codegen/refactoring.cpp:30-68 -/
def applyChanges (cur : Range → Range) (old new : QString) (index : Int) : Ctx → σ → σ × Bool
  | .node uses children, s =>
    if index = intMax then (s, true)
    else
      let r := applyUses add cur old new index uses s
      if r.2 then applyChildren cur old new index children r.1 else r
/-- codegen/refactoring.cpp:60-65: the loop over the child contexts -/
def applyChildren (cur : Range → Range) (old new : QString) (index : Int) : List Ctx → σ → σ × Bool
  | [], s => (s, true)
  | c :: cs, s =>
    let r := applyChanges cur old new index c s
    if r.2 then applyChildren cur old new index cs r.1 else r
end

/-- codegen/refactoring.cpp:70-99: the ranges of the declarations, `none` if a declaration is gone -/
def applyToDeclarations (old new : QString) : List (Option Range) → σ → σ × Bool
  | [], s => (s, true)
  | none :: ds, s => applyToDeclarations old new ds s
  | some r :: ds, s =>
    let x := add s ⟨trimmed r old, old, new⟩
    if x.2 then applyToDeclarations old new ds x.1 else x
end

/-! ## Specification -/

mutual
/-- all uses in a tree, each once: those of a context, then those of its child contexts -/
def Ctx.allUses : Ctx → List Use
  | .node uses children => uses ++ childUses children
def childUses : List Ctx → List Use
  | [] => []
  | c :: cs => c.allUses ++ childUses cs
end

mutual
/-- A use occurs in a tree. -/
inductive Ctx.Contains : Ctx → Use → Prop
  | own {uses cs u} : u ∈ uses → Ctx.Contains (.node uses cs) u
  | child {uses cs c u} : c ∈ cs → Ctx.Contains c u → Ctx.Contains (.node uses cs) u
end

/-- Offer changes one by one until one is refused. -/
def offer {σ : Type} (add : σ → Change → σ × Bool) : List Change → σ → σ × Bool
  | [], s => (s, true)
  | c :: cs, s => if (add s c).2 then offer add cs (add s c).1 else add s c

/-- Specification: what is replaced of the text of a use.  If it stands on one line and is one character longer than the
name, its first character (the dollar sign) is kept; otherwise all of it is replaced. -/
def replaced (r : Range) (old : QString) : Range :=
  { start :=
      { line := r.start.line
        column := if r.start.line = r.stop.line ∧ r.stop.column = r.start.column + old.length + 1 then r.start.column + 1
          else r.start.column }
    stop := r.stop }

theorem trimmed_replaced (r : Range) (old : QString) : trimmed r old = replaced r old := by
  unfold trimmed shouldRemoveDollar replaced
  by_cases h1 : r.start.line = r.stop.line
  · by_cases h2 : r.stop.column - r.start.column = old.length + 1
    · have h3 : r.stop.column = r.start.column + old.length + 1 := by omega
      simp only [h1, ne_eq, not_true_eq_false, if_false, true_and, h2, beq_self_eq_true, if_true]
      rw [if_pos h3]
    · have h3 : ¬ r.stop.column = r.start.column + old.length + 1 := by omega
      obtain ⟨⟨a, b⟩, ⟨c, d⟩⟩ := r
      simp only at h1 h2 h3
      simp [h1, h2, h3]
  · simp [h1]

/-- the changes for the uses of declaration `index` -/
def wanted (cur : Range → Range) (old new : QString) (index : Int) (us : List Use) : List Change :=
  (us.filter fun u => u.decl == index && !isEmpty u.range).map fun u => ⟨cur (replaced u.range old), old, new⟩

theorem mem_childUses {cs : List Ctx} {c : Ctx} {u : Use} (hc : c ∈ cs) (h : u ∈ c.allUses) : u ∈ childUses cs := by
  induction cs with
  | nil => simp at hc
  | cons d ds ihd =>
    rw [childUses]
    rcases List.mem_cons.1 hc with rfl | hc
    · exact List.mem_append_left _ h
    · exact List.mem_append_right _ (ihd hc)

theorem mem_allUses (c : Ctx) (u : Use) : u ∈ c.allUses ↔ c.Contains u := by
  constructor
  · intro h
    refine Ctx.rec (motive_1 := fun c => u ∈ c.allUses → c.Contains u)
      (motive_2 := fun cs => u ∈ childUses cs → ∃ c ∈ cs, c.Contains u) ?_ ?_ ?_ c h
    · intro uses cs ih hm
      rw [Ctx.allUses] at hm
      rcases List.mem_append.1 hm with hm | hm
      · exact .own hm
      · obtain ⟨c, hc, hu⟩ := ih hm
        exact .child hc hu
    · intro hm; simp [childUses] at hm
    · intro c cs ih1 ih2 hm
      rw [childUses] at hm
      rcases List.mem_append.1 hm with hm | hm
      · exact ⟨c, by simp, ih1 hm⟩
      · obtain ⟨d, hd, hu⟩ := ih2 hm
        exact ⟨d, by simp [hd], hu⟩
  · intro h
    induction h with
    | own hm => rw [Ctx.allUses]; exact List.mem_append_left _ hm
    | child hc _ ih =>
      rw [Ctx.allUses]
      apply List.mem_append_right
      exact mem_childUses hc ih

theorem offer_append {σ : Type} (add : σ → Change → σ × Bool) (a b : List Change) : ∀ s,
    offer add (a ++ b) s = if (offer add a s).2 then offer add b (offer add a s).1 else offer add a s := by
  induction a with
  | nil => intro s; simp [offer]
  | cons c a ih =>
    intro s
    rw [List.cons_append, offer, offer]
    cases h : (add s c).2 with
    | true => simp only [if_true]; exact ih _
    | false => simp [h]

theorem applyUses_eq {σ : Type} (add : σ → Change → σ × Bool) (cur : Range → Range) (old new : QString) (index : Int)
    (us : List Use) : ∀ s, applyUses add cur old new index us s = offer add (wanted cur old new index us) s := by
  induction us with
  | nil => intro s; rfl
  | cons u us ih =>
    intro s
    rw [applyUses]
    by_cases h1 : u.decl = index
    · cases h2 : isEmpty u.range with
      | true => simp [h1, h2, wanted, ih]
      | false =>
        have : wanted cur old new index (u :: us) = ⟨cur (trimmed u.range old), old, new⟩ :: wanted cur old new index us := by
          simp [wanted, h1, h2, trimmed_replaced]
        rw [this, offer]
        simp [h1, ih]
    · have : wanted cur old new index (u :: us) = wanted cur old new index us := by simp [wanted, h1]
      rw [this]
      simp [h1, ih]

/-- **C39 (uses).** Renaming offers to the change set exactly one change for every non-empty use of the declaration in the tree of
contexts, in the order of the tree, and stops at the first one that is refused. -/
theorem rename_uses {σ : Type} (add : σ → Change → σ × Bool) (cur : Range → Range) (old new : QString) (index : Int)
    (hindex : index ≠ intMax) (c : Ctx) (s : σ) :
    applyChanges add cur old new index c s = offer add (wanted cur old new index c.allUses) s := by
  refine Ctx.rec (motive_1 := fun c => ∀ s, applyChanges add cur old new index c s = offer add (wanted cur old new index c.allUses) s)
    (motive_2 := fun cs => ∀ s, applyChildren add cur old new index cs s = offer add (wanted cur old new index (childUses cs)) s)
    ?_ ?_ ?_ c s
  · intro uses cs ih s
    rw [applyChanges, if_neg hindex, Ctx.allUses]
    have : wanted cur old new index (uses ++ childUses cs) =
        wanted cur old new index uses ++ wanted cur old new index (childUses cs) := by simp [wanted]
    rw [this, offer_append, ← applyUses_eq]
    simp only [ih]
  · intro s; simp [applyChildren, childUses, wanted, offer]
  · intro c cs ih1 ih2 s
    rw [applyChildren, childUses]
    have : wanted cur old new index (c.allUses ++ childUses cs) =
        wanted cur old new index c.allUses ++ wanted cur old new index (childUses cs) := by simp [wanted]
    rw [this, offer_append, ← ih1]
    simp only [ih2]

/-- a change set that accepts everything -/
def accept (s : List Change) (c : Change) : List Change × Bool := (s ++ [c], true)

theorem offer_accept (cs : List Change) : ∀ s, offer accept cs s = (s ++ cs, true) := by
  induction cs with
  | nil => intro s; simp [offer]
  | cons c cs ih => intro s; rw [offer]; simp [accept]; rw [ih]; simp

/-- **C39 (every use, once).** If no change is refused, all of them are made: one per use. -/
theorem rename_complete (cur : Range → Range) (old new : QString) (index : Int) (hindex : index ≠ intMax) (c : Ctx) (s : List Change) :
    applyChanges accept cur old new index c s =
      (s ++ (c.allUses.filter fun u => u.decl == index && !isEmpty u.range).map (fun u => ⟨cur (replaced u.range old), old, new⟩), true)
    ∧ ∀ u, u ∈ c.allUses ↔ c.Contains u := by
  refine ⟨?_, mem_allUses c⟩
  rw [rename_uses _ _ _ _ _ hindex, offer_accept]
  rfl

/-- **C39 (unused).** A declaration that is not used in the file changes nothing. -/
theorem rename_unused {σ : Type} (add : σ → Change → σ × Bool) (cur : Range → Range) (old new : QString) (c : Ctx) (s : σ) :
    applyChanges add cur old new intMax c s = (s, true) := by
  cases c; rw [applyChanges, if_pos rfl]

/-- **C39 (declarations).** The same for the declarations themselves: those that still exist are changed once each. -/
theorem rename_declarations {σ : Type} (add : σ → Change → σ × Bool) (old new : QString) (ds : List (Option Range)) (s : σ) :
    applyToDeclarations add old new ds s = offer add ((ds.filterMap id).map fun r => ⟨replaced r old, old, new⟩) s := by
  induction ds generalizing s with
  | nil => rfl
  | cons d ds ih =>
    cases d with
    | none => rw [applyToDeclarations, ih]; rfl
    | some r =>
      rw [applyToDeclarations]
      simp only [List.filterMap_cons, id, List.map_cons, trimmed_replaced]
      rw [offer]
      simp only [ih]

/-! ### The effect on the text -/

/-- A piece of a line: other text, or a use of the declaration written with or without the dollar sign. -/
inductive Piece where
  | text (s : QString)
  | name
  | dollar

/-- what is written for a piece if the declaration is called `n` -/
def Piece.write (n : QString) : Piece → QString
  | .text s => s
  | .name => n
  | .dollar => 36 :: n

def writeAll (n : QString) (ps : List Piece) : QString := ps.flatMap (Piece.write n)

/-- the uses in a line beginning at a column -/
def usesOf (line index : Int) (old : QString) : Int → List Piece → List Use
  | _, [] => []
  | col, .text s :: ps => usesOf line index old (col + s.length) ps
  | col, p :: ps => ⟨index, ⟨⟨line, col⟩, ⟨line, col + (p.write old).length⟩⟩⟩ :: usesOf line index old (col + (p.write old).length) ps

/-- make a change in a line -/
def change (s : QString) (c : Change) : QString :=
  s.take c.range.start.column.toNat ++ c.new ++ s.drop c.range.stop.column.toNat

/-- changes are made from the last to the first, so that they do not shift each other (`DocumentChangeSet`) -/
def changeAll (s : QString) (cs : List Change) : QString := cs.reverse.foldl change s

theorem trimmed_piece (line : Int) (old : QString) (col : Int) (p : Piece) (hp : ∀ s, p ≠ .text s) :
    trimmed ⟨⟨line, col⟩, ⟨line, col + (p.write old).length⟩⟩ old =
      ⟨⟨line, col + (p.write old).length - old.length⟩, ⟨line, col + (p.write old).length⟩⟩ := by
  cases p with
  | text s => exact absurd rfl (hp s)
  | name =>
    have : shouldRemoveDollar ⟨⟨line, col⟩, ⟨line, col + (Piece.name.write old).length⟩⟩ old = false := by
      simp [shouldRemoveDollar, Piece.write]; omega
    rw [trimmed, this]
    simp [Piece.write]
  | dollar =>
    have : shouldRemoveDollar ⟨⟨line, col⟩, ⟨line, col + (Piece.dollar.write old).length⟩⟩ old = true := by
      simp [shouldRemoveDollar, Piece.write]; omega
    rw [trimmed, this]
    simp [Piece.write]; omega

theorem changeAll_eq (line index : Int) (old new : QString) (ho : old ≠ []) (ps : List Piece) : ∀ (pre : QString),
    changeAll (pre ++ writeAll old ps) (wanted id old new index (usesOf line index old pre.length ps)) = pre ++ writeAll new ps := by
  induction ps with
  | nil => intro pre; simp [usesOf, wanted, changeAll, writeAll]
  | cons p ps ih =>
    intro pre
    have hcat : ∀ n, writeAll n (p :: ps) = p.write n ++ writeAll n ps := by intro n; simp [writeAll]
    by_cases hp : ∃ s, p = .text s
    · obtain ⟨s, rfl⟩ := hp
      rw [hcat, hcat]
      have := ih (pre ++ s)
      simp only [usesOf, Piece.write, List.length_append, Int.natCast_add, List.append_assoc] at this ⊢
      exact this
    · have hp' : ∀ s, p ≠ .text s := fun s h => hp ⟨s, h⟩
      have hu : usesOf line index old pre.length (p :: ps) =
          ⟨index, ⟨⟨line, pre.length⟩, ⟨line, pre.length + (p.write old).length⟩⟩⟩ ::
            usesOf line index old (pre ++ p.write old).length ps := by
        cases p with
        | text s => exact absurd rfl (hp' s)
        | name => simp [usesOf]
        | dollar => simp [usesOf]
      have hlen : 0 < (p.write old).length := by
        have := List.length_pos_iff.2 ho
        cases p with
        | text s => exact absurd rfl (hp' s)
        | name => exact this
        | dollar => simp [Piece.write]
      rw [hu]
      have hw : ∀ us, wanted id old new index (⟨index, ⟨⟨line, pre.length⟩, ⟨line, pre.length + (p.write old).length⟩⟩⟩ :: us) =
          ⟨⟨⟨line, pre.length + (p.write old).length - old.length⟩, ⟨line, pre.length + (p.write old).length⟩⟩, old, new⟩ ::
            wanted id old new index us := by
        intro us
        have he : isEmpty ⟨⟨line, (pre.length : Int)⟩, ⟨line, pre.length + (p.write old).length⟩⟩ = false := by
          simp [isEmpty]; omega
        unfold wanted
        rw [List.filter_cons_of_pos (by simp [he])]
        simp only [List.map_cons, ← trimmed_replaced, trimmed_piece line old pre.length p hp', id]
      rw [hw]
      have h3 := ih (pre ++ p.write old)
      rw [changeAll] at h3 ⊢
      rw [List.reverse_cons, List.foldl_append, hcat, ← List.append_assoc, h3]
      simp only [List.foldl_cons, List.foldl_nil, change]
      have h4 : ((pre.length : Int) + (p.write old).length).toNat = (pre ++ p.write old).length := by simp; omega
      rw [h4, List.drop_left, hcat]
      cases p with
      | text s => exact absurd rfl (hp' s)
      | name =>
        have : ((pre.length : Int) + (Piece.name.write old).length - old.length).toNat = pre.length := by
          simp [Piece.write]
        rw [this, List.append_assoc pre (Piece.name.write old), List.take_left]
        simp [Piece.write]
      | dollar =>
        have : ((pre.length : Int) + (Piece.dollar.write old).length - old.length).toNat = (pre ++ [36]).length := by
          simp [Piece.write]; omega
        have e : pre ++ Piece.dollar.write old ++ writeAll new ps = (pre ++ [36]) ++ (old ++ writeAll new ps) := by
          simp [Piece.write]
        rw [this, e, List.take_left]
        simp [Piece.write]

/-- **C39 (dollar).** In a line that contains uses of a declaration written `name` or `$name`, in any number and with any text
between them, the changes collected for them replace the name and keep the dollar signs. -/
theorem rename_keeps_dollar (line index : Int) (hindex : index ≠ intMax) (old new : QString) (ho : old ≠ []) (ps : List Piece)
    (c : Ctx) (hc : c.allUses.filter (fun u => u.decl == index && !isEmpty u.range) = usesOf line index old 0 ps) :
    changeAll (writeAll old ps) (applyChanges accept id old new index c []).1 = writeAll new ps := by
  rw [(rename_complete id old new index hindex c []).1, hc]
  have hk : ∀ (ps : List Piece) col, (usesOf line index old col ps).filter (fun u => u.decl == index && !isEmpty u.range) = usesOf line index old col ps := by
    intro ps
    induction ps with
    | nil => intro col; rfl
    | cons p ps ih =>
      intro col
      have hpos := List.length_pos_iff.2 ho
      cases p with
      | text s => simp only [usesOf]; exact ih _
      | name =>
        simp only [usesOf]
        rw [List.filter_cons_of_pos, ih]
        simp [isEmpty, Piece.write]; omega
      | dollar =>
        simp only [usesOf]
        rw [List.filter_cons_of_pos, ih]
        simp [isEmpty, Piece.write]; omega
  have := changeAll_eq line index old new ho ps []
  simp only [List.nil_append, List.length_nil, Int.natCast_zero] at this
  unfold wanted at this
  rw [hk] at this
  exact this

/-- A file with the line `$ab + f($ab)`: two uses in two contexts and an unrelated use. -/
example : (applyChanges accept id (q! "ab") (q! "x") 0
    (.node [⟨0, ⟨⟨2, 0⟩, ⟨2, 3⟩⟩⟩, ⟨1, ⟨⟨2, 6⟩, ⟨2, 7⟩⟩⟩] [.node [⟨0, ⟨⟨2, 8⟩, ⟨2, 11⟩⟩⟩] []]) []).1 =
    [⟨⟨⟨2, 1⟩, ⟨2, 3⟩⟩, q! "ab", q! "x"⟩, ⟨⟨⟨2, 9⟩, ⟨2, 11⟩⟩, q! "ab", q! "x"⟩] := by decide +kernel

example : changeAll (q! "$ab + f($ab)") [⟨⟨⟨2, 1⟩, ⟨2, 3⟩⟩, q! "ab", q! "x"⟩, ⟨⟨⟨2, 9⟩, ⟨2, 11⟩⟩, q! "ab", q! "x"⟩] = q! "$x + f($x)" := by
  decide +kernel

/-- the hypothesis of `rename_keeps_dollar` for this file -/
example : (Ctx.node [⟨0, ⟨⟨2, 0⟩, ⟨2, 3⟩⟩⟩, ⟨1, ⟨⟨2, 6⟩, ⟨2, 7⟩⟩⟩] [.node [⟨0, ⟨⟨2, 8⟩, ⟨2, 11⟩⟩⟩] []]).allUses.filter
    (fun u => u.decl == 0 && !isEmpty u.range) = usesOf 2 0 (q! "ab") 0 [.dollar, .text (q! " + f("), .dollar, .text (q! ")")] := by
  decide +kernel

end KPhp.Refactor

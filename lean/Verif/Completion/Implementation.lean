import Verif.Completion.MethodTokens
/-!
# The text inserted for an override (C51)

Models `createArgumentList` (completion/helpers.cpp:31-130, without the highlighting) and the text built by
`ImplementationItem::execute` (completion/implementationitem.cpp:85-246).  The range that is replaced is not modelled.
-/
namespace KPhp.Completion.Impl

/-- The type of an argument: what `createArgumentList` asks about it, and `AbstractType::toString`. -/
inductive ArgType where
  | array (text : QString)
  | structure_ (text : QString)
  | other (text : QString)
deriving DecidableEq, Repr

def ArgType.text : ArgType → QString
  | .array t | .structure_ t | .other t => t

/-- completion/helpers.cpp:92-103 -/
def typeText (php : Bool) (types : List (Option ArgType)) (num : Nat) : QString :=
  if num < types.length then
    match types.getD num none with
    | none => []
    | some t =>
      if !php || (match t with | .array _ => true | _ => false) || (match t with | .structure_ _ => true | _ => false) then t.text ++ [32]
      else []
  else []

/-- completion/helpers.cpp:52-119: the loop over the parameters with its counters `num` and `defaultParamNum` -/
def argLoop (php : Bool) (types : List (Option ArgType)) (defaults : List QString) (firstDefault : Int) :
    List QString → Bool → Nat → Nat → QString → QString
  | [], _, _, _, ret => ret
  | p :: ps, first, num, dn, ret =>
    let ret := if first then ret else ret ++ q! ", "
    let ret := ret ++ typeText php types num
    let ret := ret ++ (36 :: p)
    if (num : Int) ≥ firstDefault then
      let d := defaults.getD dn []
      argLoop php types defaults firstDefault ps false (num + 1) (dn + 1) (if d = [] then ret else ret ++ q! " = " ++ d)
    else argLoop php types defaults firstDefault ps false (num + 1) dn ret

/-- completion/helpers.cpp:31-130 for a function -/
def createArgumentList (php : Bool) (params : List QString) (types : List (Option ArgType)) (defaults : List QString) : QString :=
  argLoop php types defaults ((params.length : Int) - defaults.length) params true 0 0 (q! "(") ++ q! ")"

/-- completion/implementationitem.cpp:200-216: the arguments of the call of the parent's method -/
def callArguments (params : List QString) : QString :=
  (params.foldl (fun (x : QString × Bool) p => ((if x.2 then x.1 else x.1 ++ q! ", ") ++ (36 :: p), false)) (q! "(", true)).1 ++ q! ")"

/-- Access policies. -/
inductive Access where
  | pub | prot | priv
deriving DecidableEq, Repr

/-- Kind of item: `ImplementationItem::HelperType`. -/
inductive Kind where
  | override | overrideVar | implement
deriving DecidableEq, Repr

/-- The member that is overridden. -/
structure Member where
  name : QString
  access : Access
  isStatic : Bool
  constructorOrDestructor : Bool
  inInterface : Bool
  voidReturn : Bool
  params : List QString
  types : List (Option ArgType)
  defaults : List QString

/-- `x ++ ' '` for all words -/
def spaced (ws : List QString) : QString := ws.flatMap fun w => w ++ [32]

/-- completion/implementationitem.cpp:151-164 -/
def accessText (m : Member) (modifiers : List QString) : QString :=
  if q! "public" ∉ modifiers ∧ q! "protected" ∉ modifiers then
    (if m.access = .prot then q! "protected " else q! "public ")
  else []

def staticText (m : Member) (modifiers : List QString) : QString :=
  if q! "static" ∉ modifiers ∧ m.isStatic = true then q! "static " else []

def functionText (modifiers : List QString) : QString := if q! "function" ∉ modifiers then q! "function " else []

/-- completion/implementationitem.cpp:218-236 -/
def bodyText (indentation : QString) (kind : Kind) (m : Member) : QString :=
  q! "\n" ++ indentation ++ q! "{\n" ++ indentation ++ q! "    " ++
  (if m.inInterface ∨ kind = .implement then []
   else if m.constructorOrDestructor = false ∧ m.voidReturn = false then
     q! "$ret = parent::" ++ m.name ++ callArguments m.params ++ q! ";\n" ++ indentation ++ q! "    return $ret;"
   else q! "parent::" ++ m.name ++ callArguments m.params ++ q! ";") ++
  q! "\n" ++ indentation ++ q! "}\n" ++ indentation

/-- completion/implementationitem.cpp:104-118: the beginning of the text and the indentation used -/
def leadText (u : CharClass) (line : QString) : QString × QString :=
  let indentation := line.takeWhile u.isSpace
  let t := if !line.isEmpty ∧ line ≠ indentation then 10 :: indentation else []
  if indentation.isEmpty then (t ++ q! "  ", q! "  ") else (t, indentation)

/-- completion/implementationitem.cpp:85-240 for a class member; `modifiers` as returned by `getMethodTokens`, the last one first -/
def execute (u : CharClass) (line : QString) (modifiers : List QString) (kind : Kind) (m : Member) : QString :=
  let (lead, indentation) := leadText u line
  let t := lead ++ spaced modifiers.reverse ++ accessText m modifiers ++ staticText m modifiers
  if kind = .overrideVar then t ++ [36] ++ m.name ++ q! " = "
  else t ++ functionText modifiers ++ m.name ++ createArgumentList true m.params m.types m.defaults ++ bodyText indentation kind m

/-! ## Specification -/

/-- How the text is placed: behind other text in a new line indented like this one; a line without indentation counts as
indented by two spaces. -/
def Placed (u : CharClass) (line lead indentation : QString) : Prop :=
  ∃ ind rest, line = ind ++ rest ∧ (∀ c ∈ ind, u.isSpace c = true) ∧ (∀ c ∈ rest.head?, u.isSpace c = false) ∧
    indentation = (if ind = [] then q! "  " else ind) ∧
    lead = (if rest = [] then [] else q! "\n" ++ ind) ++ (if ind = [] then q! "  " else [])

theorem leadText_placed (u : CharClass) (line : QString) : Placed u line (leadText u line).1 (leadText u line).2 := by
  refine ⟨line.takeWhile u.isSpace, line.dropWhile u.isSpace, List.takeWhile_append_dropWhile.symm, ?_, ?_, ?_, ?_⟩
  · intro c hc; exact List.all_eq_true.1 List.all_takeWhile c hc
  · intro c hc
    have := List.head?_dropWhile_not u.isSpace line
    cases hd : (line.dropWhile u.isSpace).head? with
    | none => rw [hd] at hc; simp at hc
    | some x => rw [hd] at this hc; simp at hc; subst hc; simpa using this
  · unfold leadText
    by_cases h : line.takeWhile u.isSpace = [] <;> simp [h]
  · have hl : line = line.takeWhile u.isSpace ++ line.dropWhile u.isSpace := List.takeWhile_append_dropWhile.symm
    have hcond : (!line.isEmpty ∧ line ≠ line.takeWhile u.isSpace) ↔ line.dropWhile u.isSpace ≠ [] := by
      constructor
      · rintro ⟨_, h2⟩ h3
        rw [h3, List.append_nil] at hl
        exact h2 hl
      · intro h
        refine ⟨?_, ?_⟩
        · cases line with
          | nil => simp at h
          | cons a l => rfl
        · intro h2
          have := congrArg List.length h2
          have h4 := congrArg List.length hl
          rw [List.length_append] at h4
          exact h (List.length_eq_zero_iff.1 (by omega))
    unfold leadText
    simp only [hcond]
    by_cases h1 : line.dropWhile u.isSpace = [] <;> by_cases h2 : line.takeWhile u.isSpace = [] <;>
      simp [h1, h2] <;> rfl

/-- words separated by a text -/
def joined (sep : QString) : List QString → QString
  | [] => []
  | [w] => w
  | w :: v :: ws => w ++ sep ++ joined sep (v :: ws)

/-- the default value of parameter `i`: the default values belong to the last parameters -/
def defaultOf (n : Nat) (defaults : List QString) (i : Nat) : QString :=
  if n ≤ i + defaults.length then defaults.getD (i + defaults.length - n) [] else []

/-- the type hint of parameter `i`: only arrays and classes are written -/
def hintOf (types : List (Option ArgType)) (i : Nat) : QString :=
  match types[i]? with
  | some (some (.array t)) => t ++ q! " "
  | some (some (.structure_ t)) => t ++ q! " "
  | _ => []

/-- parameter `i`, called `p`, of `n` -/
def paramText (n : Nat) (types : List (Option ArgType)) (defaults : List QString) (i : Nat) (p : QString) : QString :=
  hintOf types i ++ q! "$" ++ p ++ (if defaultOf n defaults i = [] then [] else q! " = " ++ defaultOf n defaults i)

theorem typeText_php (types : List (Option ArgType)) (i : Nat) : typeText true types i = hintOf types i := by
  unfold typeText hintOf
  by_cases h : i < types.length
  · rw [if_pos h]
    simp only [List.getD_eq_getElem?_getD, List.getElem?_eq_getElem h, Option.getD_some]
    cases types[i] with
    | none => rfl
    | some t => cases t <;> simp [ArgType.text]
  · rw [if_neg h, List.getElem?_eq_none (by omega)]

theorem joined_append (sep : QString) (a b : List QString) (ha : a ≠ []) (hb : b ≠ []) :
    joined sep (a ++ b) = joined sep a ++ sep ++ joined sep b := by
  induction a with
  | nil => exact absurd rfl ha
  | cons x a ih =>
    cases a with
    | nil =>
      obtain ⟨y, b', rfl⟩ := List.exists_cons_of_ne_nil hb
      simp [joined]
    | cons y a =>
      have := ih (by simp)
      simp only [List.cons_append, joined] at this ⊢
      rw [this]
      simp

/-- all parameters but the first are preceded by a comma -/
def withCommas (n : Nat) (types : List (Option ArgType)) (defaults : List QString) : Nat → List QString → QString
  | _, [] => []
  | i, p :: ps => (if i = 0 then [] else q! ", ") ++ paramText n types defaults i p ++ withCommas n types defaults (i + 1) ps

theorem argLoop_eq (types : List (Option ArgType)) (defaults : List QString) (n : Nat) (ps : List QString) : ∀ (i dn : Nat) (ret : QString),
    (n ≤ i + defaults.length → dn = i + defaults.length - n) → (i + defaults.length < n → dn = 0) → i + ps.length = n →
    (defaults.length ≤ n) →
    argLoop true types defaults ((n : Int) - defaults.length) ps (i == 0) i dn ret = ret ++ withCommas n types defaults i ps := by
  induction ps with
  | nil => intro i dn ret _ _ _ _; simp [argLoop, withCommas]
  | cons p ps ih =>
    intro i dn ret h1 h2 h3 h4
    rw [argLoop, withCommas, typeText_php]
    simp only [List.length_cons] at h3
    have hfalse : (false : Bool) = (i + 1 == 0) := by simp
    rw [hfalse]
    by_cases hd : n ≤ i + defaults.length
    · rw [if_pos (by omega)]
      rw [ih (i + 1) (dn + 1) _ (fun _ => by have := h1 hd; omega) (fun h => by omega) (by omega) h4]
      have e : defaults.getD dn [] = defaultOf n defaults i := by rw [defaultOf, if_pos hd, h1 hd]
      rw [e]
      unfold paramText
      by_cases hi : i = 0
      · by_cases hx : defaultOf n defaults i = [] <;> simp [hi] at * <;> simp [hx]
      · by_cases hx : defaultOf n defaults i = [] <;> simp [hi, hx]
    · rw [if_neg (by omega)]
      rw [ih (i + 1) dn _ (fun h => by have := h2 (by omega); omega) (fun h => h2 (by omega)) (by omega) h4]
      have e : defaultOf n defaults i = [] := by rw [defaultOf, if_neg hd]
      unfold paramText
      by_cases hi : i = 0 <;> simp [hi, e] at * <;> simp [e]

theorem withCommas_joined (n : Nat) (types : List (Option ArgType)) (defaults : List QString) (ps : List QString) : ∀ i,
    withCommas n types defaults i ps =
      (if i = 0 ∨ ps = [] then [] else q! ", ") ++ joined (q! ", ") ((ps.zipIdx i).map fun x => paramText n types defaults x.2 x.1) := by
  induction ps with
  | nil => intro i; simp [withCommas, joined]
  | cons p ps ih =>
    intro i
    rw [withCommas, ih]
    cases ps with
    | nil => simp [joined]
    | cons q ps => simp [joined]

/-- **C51 (parameters).** The list of parameters: all of them in order, separated by commas, each with its type hint if that is an
array or a class, with its name and with its own default value. -/
theorem argument_list (params : List QString) (types : List (Option ArgType)) (defaults : List QString)
    (h : defaults.length ≤ params.length) :
    createArgumentList true params types defaults =
      q! "(" ++ joined (q! ", ") (params.zipIdx.map fun x => paramText params.length types defaults x.2 x.1) ++ q! ")" := by
  unfold createArgumentList
  have := argLoop_eq types defaults params.length params 0 0 (q! "(") (fun _ => by omega) (fun _ => rfl) (by omega) h
  simp only [BEq.rfl] at this
  rw [this, withCommas_joined]
  simp

/-- The default values read are in the list. -/
theorem default_in_bounds (n : Nat) (defaults : List QString) (i : Nat) (hi : i < n) (h : n ≤ i + defaults.length) :
    i + defaults.length - n < defaults.length := by omega

theorem callArguments_eq (params : List QString) :
    callArguments params = q! "(" ++ joined (q! ", ") (params.map fun p => q! "$" ++ p) ++ q! ")" := by
  unfold callArguments
  have gen : ∀ (ps : List QString) (acc : QString), (ps.foldl (fun (x : QString × Bool) p =>
      ((if x.2 then x.1 else x.1 ++ q! ", ") ++ (36 :: p), false)) (acc, false)).1 =
      acc ++ ps.flatMap fun p => q! ", $" ++ p := by
    intro ps
    induction ps with
    | nil => intro acc; simp
    | cons p ps ih =>
      intro acc
      rw [List.foldl_cons]
      simp only [Bool.false_eq_true, if_false]
      rw [ih]; simp
  cases params with
  | nil => rfl
  | cons p ps =>
    rw [List.foldl_cons]
    simp only [if_true]
    rw [gen]
    have hj : ∀ (ps : List QString) (x : QString), joined (q! ", ") (x :: ps.map fun p => q! "$" ++ p) =
        x ++ ps.flatMap fun p => q! ", $" ++ p := by
      intro ps
      induction ps with
      | nil => intro x; simp [joined]
      | cons q ps ih => intro x; simp only [List.map_cons, joined]; rw [ih]; simp
    rw [List.map_cons, hj]
    simp

/-- the words before the name: those typed, in the order typed, then an access modifier, `static` and `function` as needed -/
def words (typed : List QString) (kind : Kind) (m : Member) : List QString :=
  typed ++
  (if q! "public" ∈ typed ∨ q! "protected" ∈ typed then [] else [if m.access = .prot then q! "protected" else q! "public"]) ++
  (if m.isStatic = true ∧ q! "static" ∉ typed then [q! "static"] else []) ++
  (if kind = .overrideVar ∨ q! "function" ∈ typed then [] else [q! "function"])

/-- the statements of the body -/
inductive Body : Kind → Member → List QString → Prop
  | empty {k m} : m.inInterface = true ∨ k = .implement → Body k m [[]]
  | call {k m} : m.inInterface = false → k ≠ .implement → m.constructorOrDestructor = true ∨ m.voidReturn = true →
      Body k m [q! "parent::" ++ m.name ++ q! "(" ++ joined (q! ", ") (m.params.map fun p => q! "$" ++ p) ++ q! ");"]
  | value {k m} : m.inInterface = false → k ≠ .implement → m.constructorOrDestructor = false → m.voidReturn = false →
      Body k m [q! "$ret = parent::" ++ m.name ++ q! "(" ++ joined (q! ", ") (m.params.map fun p => q! "$" ++ p) ++ q! ");", q! "return $ret;"]

theorem nodup_snoc {l : List QString} {x : QString} (h : l.Nodup) (hx : x ∉ l) : (l ++ [x]).Nodup := by
  rw [List.nodup_append]
  refine ⟨h, by simp, ?_⟩
  intro a ha b hb
  simp at hb
  subst hb
  intro e
  exact hx (e ▸ ha)

theorem spaced_append (a b : List QString) : spaced (a ++ b) = spaced a ++ spaced b := by simp [spaced]

/-- **C51 (method).** The text inserted to override or implement a method: the modifiers typed so far and those that are missing, the
name, the parameters and a body; the body calls the parent's method with all parameters in order, and returns its result if
there can be one, and is empty if there is no method to call. Everything is indented like the line. -/
theorem override_method (u : CharClass) (line : QString) (typed : List QString) (kind : Kind) (hk : kind ≠ .overrideVar) (m : Member)
    (hd : m.defaults.length ≤ m.params.length) :
    ∃ lead indentation body, Placed u line lead indentation ∧ Body kind m body ∧
    execute u line typed.reverse kind m =
      lead ++ spaced (words typed kind m) ++ m.name ++
      q! "(" ++ joined (q! ", ") (m.params.zipIdx.map fun x => paramText m.params.length m.types m.defaults x.2 x.1) ++ q! ")" ++
      q! "\n" ++ indentation ++ q! "{" ++ (body.flatMap fun s => q! "\n" ++ indentation ++ q! "    " ++ s) ++
      q! "\n" ++ indentation ++ q! "}\n" ++ indentation := by
  obtain ⟨lead, indentation, hl⟩ : ∃ a b, leadText u line = (a, b) := ⟨_, _, rfl⟩
  have hpl : Placed u line lead indentation := by have := leadText_placed u line; rwa [hl] at this
  have hw : spaced (words typed kind m) = spaced typed ++ accessText m typed.reverse ++ staticText m typed.reverse ++ functionText typed.reverse := by
    unfold words accessText staticText functionText
    simp only [spaced_append, List.mem_reverse, hk, false_or]
    congr 1
    · congr 1
      · congr 1
        by_cases h1 : q! "public" ∈ typed <;> by_cases h2 : q! "protected" ∈ typed <;> by_cases h3 : m.access = .prot <;>
          simp [h1, h2, h3, spaced]
      · by_cases h1 : q! "static" ∈ typed <;> cases h2 : m.isStatic <;> simp [h1, spaced]
    · by_cases h1 : q! "function" ∈ typed <;> simp [h1, spaced]
  have hexe : execute u line typed.reverse kind m = lead ++ spaced (words typed kind m) ++ m.name ++
      createArgumentList true m.params m.types m.defaults ++ bodyText indentation kind m := by
    simp only [execute, hl, if_neg hk, List.reverse_reverse, hw, List.append_assoc]
  rw [hexe, argument_list _ _ _ hd]
  have hb : ∃ body, Body kind m body ∧ bodyText indentation kind m =
      q! "\n" ++ indentation ++ q! "{" ++ (body.flatMap fun s => q! "\n" ++ indentation ++ q! "    " ++ s) ++
      q! "\n" ++ indentation ++ q! "}\n" ++ indentation := by
    unfold bodyText
    by_cases h1 : m.inInterface = true ∨ kind = .implement
    · exact ⟨_, .empty h1, by rw [if_pos h1]; simp⟩
    · rw [if_neg h1]
      have hi : m.inInterface = false := by
        cases h : m.inInterface with
        | false => rfl
        | true => exact absurd (Or.inl h) h1
      have hn : kind ≠ .implement := fun h => h1 (Or.inr h)
      by_cases h2 : m.constructorOrDestructor = false ∧ m.voidReturn = false
      · refine ⟨_, .value hi hn h2.1 h2.2, ?_⟩
        rw [if_pos h2, callArguments_eq]
        simp
      · refine ⟨_, .call hi hn ?_, ?_⟩
        · cases h3 : m.constructorOrDestructor <;> cases h4 : m.voidReturn <;> simp [h3, h4] at h2 ⊢
        · rw [if_neg h2, callArguments_eq]
          simp
  obtain ⟨body, hB, hbt⟩ := hb
  refine ⟨lead, indentation, body, hpl, hB, ?_⟩
  rw [hbt]
  simp only [List.append_assoc]

/-- **C51 (variable).** The text inserted to override a variable. -/
theorem override_variable (u : CharClass) (line : QString) (typed : List QString) (m : Member) :
    ∃ lead indentation, Placed u line lead indentation ∧
    execute u line typed.reverse .overrideVar m = lead ++ spaced (words typed .overrideVar m) ++ q! "$" ++ m.name ++ q! " = " := by
  obtain ⟨lead, indentation, hl⟩ : ∃ a b, leadText u line = (a, b) := ⟨_, _, rfl⟩
  have hpl : Placed u line lead indentation := by have := leadText_placed u line; rwa [hl] at this
  refine ⟨lead, indentation, hpl, ?_⟩
  simp only [execute, hl, if_true, List.reverse_reverse]
  congr 2
  unfold words accessText staticText
  simp only [spaced_append, List.mem_reverse, true_or, if_true]
  by_cases h1 : q! "public" ∈ typed <;> by_cases h2 : q! "protected" ∈ typed <;> by_cases h3 : m.access = .prot <;>
    by_cases h4 : q! "static" ∈ typed <;> cases h5 : m.isStatic <;>
    simp [h1, h2, h3, h4, spaced]

def accessWords : List QString := [q! "public", q! "protected", q! "private"]

/-- **C51 (modifiers).** If what was typed is sensible (no modifier twice, at most one access modifier, and not `private`, for which
overrides are not offered), the result has exactly one access modifier: the one typed, else that of the overridden member (public
unless it is protected); it is static if that was typed or the member is; a method has `function` once; no word is repeated. -/
theorem override_modifiers (typed : List QString) (kind : Kind) (m : Member) (hnd : typed.Nodup)
    (hpriv : q! "private" ∉ typed) (hone : ¬ (q! "public" ∈ typed ∧ q! "protected" ∈ typed)) :
    (words typed kind m).Nodup ∧ typed <+: words typed kind m ∧
    (∃ a, (∀ w, w ∈ accessWords → (w ∈ words typed kind m ↔ w = a)) ∧
      (a ∈ typed ∨ ((∀ w ∈ typed, w ∉ accessWords) ∧ a = if m.access = .prot then q! "protected" else q! "public"))) ∧
    (q! "static" ∈ words typed kind m ↔ q! "static" ∈ typed ∨ m.isStatic = true) ∧
    (kind ≠ .overrideVar → q! "function" ∈ words typed kind m) := by
  have hcases : ∀ w ∈ typed, w ∈ accessWords → w = q! "public" ∨ w = q! "protected" := by
    intro w hw ha
    simp only [accessWords, List.mem_cons, List.not_mem_nil, or_false] at ha
    rcases ha with rfl | rfl | rfl
    · exact Or.inl rfl
    · exact Or.inr rfl
    · exact absurd hw hpriv
  refine ⟨?_, ?_, ?_, ?_, ?_⟩
  · unfold words
    have n1 : (typed ++ (if q! "public" ∈ typed ∨ q! "protected" ∈ typed then []
        else [if m.access = .prot then q! "protected" else q! "public"])).Nodup := by
      split
      · simpa using hnd
      · rename_i h
        refine nodup_snoc hnd ?_
        split
        · exact fun h' => h (Or.inr h')
        · exact fun h' => h (Or.inl h')
    have m1 : ∀ w, w ∉ accessWords → w ∉ typed → w ∉ typed ++ (if q! "public" ∈ typed ∨ q! "protected" ∈ typed then []
        else [if m.access = .prot then q! "protected" else q! "public"]) := by
      intro w h1 h2 h3
      rcases List.mem_append.1 h3 with h3 | h3
      · exact h2 h3
      · split at h3
        · simp at h3
        · simp only [List.mem_singleton] at h3
          refine h1 ?_
          rw [h3]
          split <;> decide
    generalize typed ++ (if q! "public" ∈ typed ∨ q! "protected" ∈ typed then []
        else [if m.access = .prot then q! "protected" else q! "public"]) = L at n1 m1
    have n2 : (L ++ if m.isStatic = true ∧ q! "static" ∉ typed then [q! "static"] else []).Nodup := by
      split
      · rename_i h
        exact nodup_snoc n1 (m1 _ (by decide) h.2)
      · simpa using n1
    have m2 : q! "function" ∉ typed → q! "function" ∉ L ++ if m.isStatic = true ∧ q! "static" ∉ typed then [q! "static"] else [] := by
      intro h h3
      rcases List.mem_append.1 h3 with h3 | h3
      · exact m1 _ (by decide) h h3
      · split at h3
        · simp at h3
        · simp at h3
    by_cases h : kind = .overrideVar ∨ q! "function" ∈ typed
    · rw [if_pos h, List.append_nil]; exact n2
    · rw [if_neg h]
      exact nodup_snoc n2 (m2 fun h' => h (Or.inr h'))
  · unfold words
    simp only [List.append_assoc]
    exact List.prefix_append _ _
  · unfold words
    by_cases h1 : q! "public" ∈ typed
    · have h2 : q! "protected" ∉ typed := fun h => hone ⟨h1, h⟩
      refine ⟨q! "public", ?_, Or.inl h1⟩
      intro w hw
      simp only [accessWords, List.mem_cons, List.not_mem_nil, or_false] at hw
      rcases hw with rfl | rfl | rfl
      · simp [h1]
      · cases m.isStatic <;> by_cases h4 : q! "static" ∈ typed <;> by_cases h5 : q! "function" ∈ typed <;> cases kind <;> simp [h1, h2, h4, h5]
      · cases m.isStatic <;> by_cases h4 : q! "static" ∈ typed <;> by_cases h5 : q! "function" ∈ typed <;> cases kind <;> simp [h1, hpriv, h4, h5]
    · by_cases h2 : q! "protected" ∈ typed
      · refine ⟨q! "protected", ?_, Or.inl h2⟩
        intro w hw
        simp only [accessWords, List.mem_cons, List.not_mem_nil, or_false] at hw
        rcases hw with rfl | rfl | rfl
        · cases m.isStatic <;> by_cases h4 : q! "static" ∈ typed <;> by_cases h5 : q! "function" ∈ typed <;> cases kind <;> simp [h1, h2, h4, h5]
        · simp [h2]
        · cases m.isStatic <;> by_cases h4 : q! "static" ∈ typed <;> by_cases h5 : q! "function" ∈ typed <;> cases kind <;> simp [h2, hpriv, h4, h5]
      · refine ⟨if m.access = .prot then q! "protected" else q! "public", ?_, Or.inr ⟨?_, rfl⟩⟩
        · intro w hw
          simp only [accessWords, List.mem_cons, List.not_mem_nil, or_false] at hw
          by_cases h3 : m.access = .prot <;> rcases hw with rfl | rfl | rfl <;>
            cases m.isStatic <;> by_cases h4 : q! "static" ∈ typed <;> by_cases h5 : q! "function" ∈ typed <;> cases kind <;>
            simp [h1, h2, h3, h4, h5, hpriv]
        · intro w hw ha
          rcases hcases w hw ha with rfl | rfl
          · exact h1 hw
          · exact h2 hw
  · unfold words
    by_cases h1 : q! "public" ∈ typed <;> by_cases h2 : q! "protected" ∈ typed <;> by_cases h3 : m.access = .prot <;>
      by_cases h4 : q! "static" ∈ typed <;> by_cases h5 : q! "function" ∈ typed <;> cases h6 : m.isStatic <;> cases kind <;>
      simp [h1, h2, h3, h4, h5]
  · intro hk
    unfold words
    by_cases h5 : q! "function" ∈ typed
    · simp [h5]
    · simp [h5, hk]

/-- **C51 (order).** `function` stands directly before the name if it was not typed, or typed last and nothing had to be added.
Missing: the other case, see `function_not_last`. -/
theorem function_last_partial (typed : List QString) (kind : Kind) (m : Member) (hk : kind ≠ .overrideVar)
    (h : q! "function" ∉ typed ∨
      (typed.getLast? = some (q! "function") ∧ (q! "public" ∈ typed ∨ q! "protected" ∈ typed) ∧ (m.isStatic = false ∨ q! "static" ∈ typed))) :
    (words typed kind m).getLast? = some (q! "function") := by
  rcases h with h | ⟨h1, h2, h3⟩
  · unfold words
    rw [if_neg (show ¬ (kind = .overrideVar ∨ q! "function" ∈ typed) from fun h' => h'.elim hk h)]
    simp
  · have hf : q! "function" ∈ typed := List.mem_of_getLast? h1
    unfold words
    rw [if_pos h2, if_neg (show ¬ (m.isStatic = true ∧ q! "static" ∉ typed) from fun h' => by
      rcases h3 with h3 | h3
      · rw [h3] at h'; exact absurd h'.1 (by simp)
      · exact h'.2 h3), if_pos (Or.inr hf)]
    simpa using h1

/-- **Limit of C51.** If only `function` was typed, the access modifier is inserted behind it, which is not PHP. -/
theorem function_not_last (m : Member) (hs : m.isStatic = false) (ha : m.access ≠ .prot) :
    words [q! "function"] .override m = [q! "function", q! "public"] := by
  unfold words
  simp [hs, ha]

/-- `function foo(array $a, $b = 1)` of a class, overridden behind `final` in a line indented by two spaces. -/
def demo : Member := ⟨q! "foo", .pub, false, false, false, false, [q! "a", q! "b"], [some (.array (q! "array")), some (.other (q! "int"))], [q! "1"]⟩

example : execute asciiClass (q! "  ") [q! "final"] .override demo =
    q! "final public function foo(array $a, $b = 1)\n  {\n      $ret = parent::foo($a, $b);\n      return $ret;\n  }\n  " := by decide +kernel

example : execute asciiClass (q! "  ") [q! "function"] .implement demo =
    q! "function public foo(array $a, $b = 1)\n  {\n      \n  }\n  " := by decide +kernel

end KPhp.Completion.Impl

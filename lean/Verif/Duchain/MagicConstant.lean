import Verif.Chars
/-!
# The tool tip of a magic constant (C88)

Models `MagicConstantNavigationContext` (duchain/navigation/magicconstantnavigationcontext.cpp:20-119) on the contexts that
`ContextBuilder` opens (duchain/builders/contextbuilder.cpp:244-424), with `DUContext::findContextAt` of KDevPlatform.

Simplifications: a position is the offset in the file (only the order of positions matters here; the line is passed separately);
the HTML around the value and the escaping are left out; `QFileInfo::absoluteDir` is a parameter.

Trusted (KDevPlatform): `findContextAt` returns the innermost context around a position, looking at the child contexts from the last to the first; a range contains its start and
not its end; the body context of a function has the function as its owner and a namespace context a namespace declaration.
-/
namespace KPhp.MagicConstant

/-! ### the program -/

/-- The parts of a file that have a context.  A body is the half-open range `[lo, hi)`.
`namespace A { … }` has `stop = hi`; the context of `namespace A;` reaches to the end of the file (`stop`), while the code that belongs to
it ends at `hi`.  The block `namespace { … }` has no context: its items belong to the list around it. -/
inductive Item
  | klass (name : QString) (lo hi : Nat) (items : List Item)                            -- class, interface, trait: the whole statement
  | method (name : QString) (plo phi lo hi : Nat) (items : List Item)
  | func (name : QString) (plo phi lo hi : Nat) (items : List Item)
  | closure (plo phi : Nat) (uses : Option (Nat × Nat)) (lo hi : Nat) (items : List Item)
  | ns (names : List QString) (lo hi stop : Nat) (items : List Item)

/-! ### the contexts -/

/-- `DUContext::ContextType`, the values kdev-php uses. -/
inductive Kind
  | global | namespace | klass | function | other
deriving DecidableEq, Repr

/-- What is used of a context: its type, its local scope identifier, its start, whether its owner has a function type. -/
structure Info where
  kind : Kind
  name : QString
  lo : Nat
  isFn : Bool
deriving DecidableEq, Repr

/-- A context with its end and its child contexts. -/
inductive Ctx
  | mk (info : Info) (hi : Nat) (kids : List Ctx)

/-- The nested contexts of a namespace name (contextbuilder.cpp:389-406, 421-428): one per component, lower case, all with the same range. -/
def nsCtx (u : CharClass) (lo stop : Nat) (kids : List Ctx) : List QString → List Ctx
  | [] => kids
  | n :: ns => [.mk ⟨.namespace, lowerStr u n, lo, false⟩ stop (nsCtx u lo stop kids ns)]

mutual
/-- The contexts opened for an item. -/
def ctxs (u : CharClass) : Item → List Ctx
  | .klass n lo hi its => [.mk ⟨.klass, lowerStr u n, lo, false⟩ hi (allCtxs u its)]              -- contextbuilder.cpp:244-273
  | .method n plo phi lo hi its =>                                                                -- contextbuilder.cpp:275-302
    [.mk ⟨.function, n, plo, false⟩ phi [], .mk ⟨.other, n, lo, true⟩ hi (allCtxs u its)]
  | .func n plo phi lo hi its =>                                                                  -- contextbuilder.cpp:308-331
    [.mk ⟨.function, n, plo, false⟩ phi [], .mk ⟨.other, n, lo, true⟩ hi (allCtxs u its)]
  | .closure plo phi uses lo hi its =>                                                            -- contextbuilder.cpp:333-371
    .mk ⟨.function, [], plo, false⟩ phi [] ::
      (match uses with
        | none => []
        | some (a, b) => [.mk ⟨.other, [], a, false⟩ b []])
      ++ [.mk ⟨.other, [], lo, true⟩ hi (allCtxs u its)]
  | .ns names lo _ stop its => nsCtx u lo stop (allCtxs u its) names                              -- contextbuilder.cpp:373-411
/-- The contexts of a list of items. -/
def allCtxs (u : CharClass) : List Item → List Ctx
  | [] => []
  | i :: is => ctxs u i ++ allCtxs u is
end

mutual
/-- `DUContext::findContextAt` with the parents of the result: innermost first, empty if the position is outside. -/
def Ctx.at : Ctx → Nat → List Info
  | .mk i hi kids, p => if i.lo ≤ p ∧ p < hi then kidsAt kids p ++ [i] else []
/-- The last of the contexts around the position. -/
def kidsAt : List Ctx → Nat → List Info
  | [], _ => []
  | c :: cs, p =>
    match kidsAt cs p with
    | [] => c.at p
    | i :: l => i :: l
end

/-- The context of the file (contextbuilder.cpp:132-143). -/
def top (u : CharClass) (size : Nat) (its : List Item) : Ctx := .mk ⟨.global, [], 0, false⟩ size (allCtxs u its)

/-- `findContext`, magicconstantnavigationcontext.cpp:33-43: the innermost context of a type, with its parents. -/
def find (t : Ctx) (p : Nat) (k : Kind) : List Info := (t.at p).dropWhile (fun i => i.kind ≠ k)

/-! ### the values -/

/-- The value shown: a text, or the remark "empty (not inside …)". -/
inductive Value
  | text (s : QString)
  | empty
deriving DecidableEq, Repr

/-- The loop for `__METHOD__`, magicconstantnavigationcontext.cpp:73-93, at most `fuel` rounds; `none` if it is not finished then. -/
def methodLoop (t : Ctx) : Nat → Nat → Option Value
  | 0, _ => none
  | n + 1, p =>
    match find t p .other with
    | [] => some .empty
    | [_] => some .empty
    | c :: q :: _ =>
      if q.kind = .klass then some (.text (q.name ++ q! "::" ++ c.name))
      else methodLoop t n c.lo

/-- The constants. -/
inductive Const
  | file | dir | line | cls | trait | function | namespace
deriving DecidableEq, Repr

/-- The value of the other constants, magicconstantnavigationcontext.cpp:54-72, 94-113. -/
def value (url dir : QString) (line : Nat) (t : Ctx) (p : Nat) : Const → Value
  | .file => .text url
  | .dir => .text dir
  | .line => .text ((Nat.toDigits 10 (line + 1)).map Char.toNat)
  | .cls => match find t p .klass with
    | c :: _ => .text c.name
    | [] => .empty
  | .trait => match find t p .klass with
    | c :: _ => .text c.name
    | [] => .empty
  | .function => match find t p .other with
    | c :: _ => if c.isFn then .text c.name else .empty
    | [] => .empty
  | .namespace => match find t p .namespace with
    | c :: _ => .text c.name
    | [] => .empty

/-! ### Specification -/

mutual
/-- The items lie one after the other from `lo` on; `c`: they are members of a class. -/
def Placed : Bool → Nat → List Item → Prop
  | _, _, [] => True
  | c, lo, i :: is => ∃ m, PlacedItem c lo m i ∧ Placed c m is
/-- The item lies in `[lo, m)`: its parts come one after the other, a body after the keyword and the parameters.  (The body of a function is the range of its statements: if there are none the range
starts at the closing and ends at the opening brace.) -/
def PlacedItem : Bool → Nat → Nat → Item → Prop
  | c, lo, m, .klass _ s e its => c = false ∧ lo ≤ s ∧ s ≤ m ∧ e ≤ m ∧ Placed true (s + 1) its
  | c, lo, m, .method _ plo phi s e its => c = true ∧ lo < plo ∧ phi ≤ s ∧ plo ≤ s ∧ s ≤ m ∧ e ≤ m ∧ Placed false s its
  | c, lo, m, .func _ plo phi s e its => c = false ∧ lo < plo ∧ phi ≤ s ∧ plo ≤ s ∧ s ≤ m ∧ e ≤ m ∧ Placed false s its
  | c, lo, m, .closure plo phi uses s e its =>
    c = false ∧ lo < plo ∧ phi ≤ s ∧ plo ≤ s ∧ s ≤ m ∧ e ≤ m ∧ (∀ a b, uses = some (a, b) → plo ≤ a ∧ a ≤ b ∧ b ≤ s) ∧ Placed false s its
  | c, lo, m, .ns names s e stop its => c = false ∧ names ≠ [] ∧ lo < s ∧ s ≤ m ∧ e ≤ m ∧ e ≤ stop ∧ Placed false s its
end

/-- What encloses a position; a body with its start. -/
inductive Frame
  | klass (name : QString) (lo : Nat)
  | method (name : QString) (lo : Nat)
  | func (name : QString) (lo : Nat)
  | closure (lo : Nat)
  | ns (names : List QString) (lo : Nat)
deriving DecidableEq

/-- The frame of an item. -/
def Item.frame : Item → Frame
  | .klass n lo _ _ => .klass n lo
  | .method n _ _ lo _ _ => .method n lo
  | .func n _ _ lo _ _ => .func n lo
  | .closure _ _ _ lo _ _ => .closure lo
  | .ns names lo _ _ _ => .ns names lo

/-- The body of an item. -/
def Item.body : Item → Nat × Nat × List Item
  | .klass _ lo hi its => (lo, hi, its)
  | .method _ _ _ lo hi its => (lo, hi, its)
  | .func _ _ _ lo hi its => (lo, hi, its)
  | .closure _ _ _ lo hi its => (lo, hi, its)
  | .ns _ lo hi _ its => (lo, hi, its)

/-- The position is in the body of the item, in the list of used variables of a closure, or after a `namespace A;`. -/
def Item.Covers (p : Nat) : Item → Prop
  | .klass _ lo hi _ => lo ≤ p ∧ p < hi
  | .method _ _ _ lo hi _ => lo ≤ p ∧ p < hi
  | .func _ _ _ lo hi _ => lo ≤ p ∧ p < hi
  | .closure _ _ uses lo hi _ => (lo ≤ p ∧ p < hi) ∨ ∃ a b, uses = some (a, b) ∧ a ≤ p ∧ p < b
  | .ns _ lo _ stop _ => lo ≤ p ∧ p < stop

/-- The bodies around a position, innermost first. -/
inductive Inside (p : Nat) : List Item → List Frame → Prop
  | here {its : List Item} : (∀ i ∈ its, ¬ i.Covers p) → Inside p its []
  | there {its : List Item} {i : Item} {fs : List Frame} : i ∈ its → i.body.1 ≤ p → p < i.body.2.1 → Inside p i.body.2.2 fs →
      Inside p its (fs ++ [i.frame])

/-- The innermost class, interface or trait. -/
def innerClass : List Frame → Option QString
  | [] => none
  | .klass n _ :: _ => some n
  | _ :: fs => innerClass fs

/-- The innermost namespace. -/
def innerNs : List Frame → Option (List QString)
  | [] => none
  | .ns n _ :: _ => some n
  | _ :: fs => innerNs fs

/-- The innermost function, method or closure with what is around it. -/
def innerFn : List Frame → Option (Frame × List Frame)
  | [] => none
  | .method n lo :: fs => some (.method n lo, fs)
  | .func n lo :: fs => some (.func n lo, fs)
  | .closure lo :: fs => some (.closure lo, fs)
  | _ :: fs => innerFn fs

/-! ### the contexts around a position -/

/-- The contexts of a frame, innermost first. -/
def Frame.infos (u : CharClass) : Frame → List Info
  | .klass n lo => [⟨.klass, lowerStr u n, lo, false⟩]
  | .method n lo => [⟨.other, n, lo, true⟩]
  | .func n lo => [⟨.other, n, lo, true⟩]
  | .closure lo => [⟨.other, [], lo, true⟩]
  | .ns names lo => (names.map fun n => ⟨.namespace, lowerStr u n, lo, false⟩).reverse

theorem kidsAt_append (p : Nat) : ∀ (a b : List Ctx), kidsAt (a ++ b) p = match kidsAt b p with
    | [] => kidsAt a p
    | i :: l => i :: l
  | [], b => by simp [kidsAt]; cases kidsAt b p <;> rfl
  | c :: a, b => by
    rw [List.cons_append, kidsAt, kidsAt_append p a b]
    cases hb : kidsAt b p with
    | nil => simp [kidsAt]
    | cons i l => simp

theorem kidsAt_append_nil {p : Nat} {a b : List Ctx} (h : kidsAt b p = []) : kidsAt (a ++ b) p = kidsAt a p := by
  rw [kidsAt_append, h]

theorem kidsAt_append_ne {p : Nat} {a b : List Ctx} (h : kidsAt b p ≠ []) : kidsAt (a ++ b) p = kidsAt b p := by
  rw [kidsAt_append]
  cases hb : kidsAt b p with
  | nil => exact absurd hb h
  | cons i l => rfl

theorem kidsAt_single (c : Ctx) (p : Nat) : kidsAt [c] p = c.at p := by simp [kidsAt]

theorem at_in {i : Info} {hi p : Nat} {kids : List Ctx} (h1 : i.lo ≤ p) (h2 : p < hi) : (Ctx.mk i hi kids).at p = kidsAt kids p ++ [i] := by
  simp [Ctx.at, h1, h2]

theorem at_out {i : Info} {hi p : Nat} {kids : List Ctx} (h : p < i.lo ∨ hi ≤ p) : (Ctx.mk i hi kids).at p = [] := by
  simp only [Ctx.at]
  rw [if_neg (by omega)]

theorem nsCtx_in (u : CharClass) {lo stop p : Nat} (kids : List Ctx) (h1 : lo ≤ p) (h2 : p < stop) : ∀ ns : List QString,
    kidsAt (nsCtx u lo stop kids ns) p = kidsAt kids p ++ (ns.map fun n => (⟨.namespace, lowerStr u n, lo, false⟩ : Info)).reverse
  | [] => by simp [nsCtx]
  | n :: ns => by
    rw [nsCtx, kidsAt_single, at_in h1 h2, nsCtx_in u kids h1 h2 ns]
    simp

theorem nsCtx_out (u : CharClass) {lo stop p : Nat} (kids : List Ctx) (h : p < lo ∨ stop ≤ p) {ns : List QString} (hn : ns ≠ []) :
    kidsAt (nsCtx u lo stop kids ns) p = [] := by
  cases ns with
  | nil => exact absurd rfl hn
  | cons n ns => rw [nsCtx, kidsAt_single, at_out h]

/-- The contexts before the body of an item. -/
def Item.head : Item → List Ctx
  | .klass _ _ _ _ => []
  | .method n plo phi _ _ _ => [.mk ⟨.function, n, plo, false⟩ phi []]
  | .func n plo phi _ _ _ => [.mk ⟨.function, n, plo, false⟩ phi []]
  | .closure plo phi uses _ _ _ =>
    .mk ⟨.function, [], plo, false⟩ phi [] ::
      (match uses with
        | none => []
        | some (a, b) => [.mk ⟨.other, [], a, false⟩ b []])
  | .ns _ _ _ _ _ => []

/-- The end of the range of the body's context. -/
def Item.stop : Item → Nat
  | .klass _ _ hi _ => hi
  | .method _ _ _ _ hi _ => hi
  | .func _ _ _ _ hi _ => hi
  | .closure _ _ _ _ hi _ => hi
  | .ns _ _ _ stop _ => stop

/-- The contexts of the body of an item. -/
def Item.main (u : CharClass) : Item → List Ctx
  | .klass n lo hi its => [.mk ⟨.klass, lowerStr u n, lo, false⟩ hi (allCtxs u its)]
  | .method n _ _ lo hi its => [.mk ⟨.other, n, lo, true⟩ hi (allCtxs u its)]
  | .func n _ _ lo hi its => [.mk ⟨.other, n, lo, true⟩ hi (allCtxs u its)]
  | .closure _ _ _ lo hi its => [.mk ⟨.other, [], lo, true⟩ hi (allCtxs u its)]
  | .ns names lo _ stop its => nsCtx u lo stop (allCtxs u its) names

theorem ctxs_eq (u : CharClass) (i : Item) : ctxs u i = i.head ++ i.main u := by
  cases i <;> simp [ctxs, Item.head, Item.main]

theorem main_in (u : CharClass) (i : Item) {p : Nat} (h1 : i.body.1 ≤ p) (h2 : p < i.stop) :
    kidsAt (i.main u) p = kidsAt (allCtxs u i.body.2.2) p ++ i.frame.infos u := by
  cases i with
  | ns names lo hi stop its => exact nsCtx_in u _ h1 h2 names
  | klass n lo hi its => exact (kidsAt_single _ p).trans (at_in h1 h2)
  | method n a b lo hi its => exact (kidsAt_single _ p).trans (at_in h1 h2)
  | func n a b lo hi its => exact (kidsAt_single _ p).trans (at_in h1 h2)
  | closure a b c lo hi its => exact (kidsAt_single _ p).trans (at_in h1 h2)

theorem main_out (u : CharClass) {c : Bool} {lo m : Nat} (i : Item) (hpl : PlacedItem c lo m i) {p : Nat} (h : p < i.body.1 ∨ i.stop ≤ p) :
    kidsAt (i.main u) p = [] := by
  cases i with
  | ns names lo hi stop its => simp only [PlacedItem] at hpl; exact nsCtx_out u _ h hpl.2.1
  | klass n lo hi its => exact (kidsAt_single _ p).trans (at_out h)
  | method n a b lo hi its => exact (kidsAt_single _ p).trans (at_out h)
  | func n a b lo hi its => exact (kidsAt_single _ p).trans (at_out h)
  | closure a b c lo hi its => exact (kidsAt_single _ p).trans (at_out h)

theorem PlacedItem.bounds {c : Bool} {lo m : Nat} {i : Item} (h : PlacedItem c lo m i) : lo ≤ i.body.1 ∧ i.body.1 ≤ m ∧ i.body.2.1 ≤ m ∧ i.body.2.1 ≤ i.stop := by
  cases i <;> simp only [PlacedItem] at h <;> simp only [Item.body, Item.stop] <;> omega

/-- The head contains nothing up to the start of the item. -/
theorem head_before {c : Bool} {lo m : Nat} {i : Item} (h : PlacedItem c lo m i) {p : Nat} (hp : p ≤ lo) : kidsAt i.head p = [] := by
  cases i with
  | klass n s e its => simp [Item.head, kidsAt]
  | ns names s e stop its => simp [Item.head, kidsAt]
  | method n plo phi s e its =>
    simp only [PlacedItem] at h
    rw [Item.head, kidsAt_single, at_out (Or.inl (by show p < plo; omega))]
  | func n plo phi s e its =>
    simp only [PlacedItem] at h
    rw [Item.head, kidsAt_single, at_out (Or.inl (by show p < plo; omega))]
  | closure plo phi uses s e its =>
    simp only [PlacedItem] at h
    cases uses with
    | none => simp only [Item.head]; rw [kidsAt_single, at_out (Or.inl (by show p < plo; omega))]
    | some ab =>
      obtain ⟨a, b⟩ := ab
      have := h.2.2.2.2.2.2.1 a b rfl
      simp only [Item.head]
      rw [kidsAt, kidsAt_single, at_out (Or.inl (by show p < a; omega)), at_out (Or.inl (by show p < plo; omega))]

/-- Nothing is found before the items. -/
theorem before (u : CharClass) {c : Bool} {p : Nat} : ∀ {its : List Item} {lo : Nat}, Placed c lo its → p < lo → kidsAt (allCtxs u its) p = []
  | [], _, _, _ => by simp [allCtxs, kidsAt]
  | i :: is, lo, h, hp => by
    rw [Placed] at h
    obtain ⟨m, hi, his⟩ := h
    have hb := hi.bounds
    rw [allCtxs, kidsAt_append_nil (before u his (by omega)), ctxs_eq, kidsAt_append_nil (main_out u i hi (Or.inl (by omega))),
      head_before hi (by omega)]

theorem infos_ne (u : CharClass) {c : Bool} {lo m : Nat} {i : Item} (h : PlacedItem c lo m i) : i.frame.infos u ≠ [] := by
  cases i <;> simp [Item.frame, Frame.infos]
  simp only [PlacedItem] at h
  exact h.2.1

theorem Placed.mem {c : Bool} {i : Item} : ∀ {its : List Item} {lo : Nat}, Placed c lo its → i ∈ its → ∃ l m, PlacedItem c l m i
  | [], _, _, hm => by simp at hm
  | j :: is, lo, h, hm => by
    rw [Placed] at h
    obtain ⟨m, hj, his⟩ := h
    simp only [List.mem_cons] at hm
    rcases hm with rfl | hm
    · exact ⟨lo, m, hj⟩
    · exact his.mem hm

/-- In the body of an item the contexts of the body are found. -/
theorem within (u : CharClass) {c : Bool} {p : Nat} {i : Item} : ∀ {its : List Item} {lo : Nat}, Placed c lo its → i ∈ its → i.body.1 ≤ p → p < i.body.2.1 →
    kidsAt (allCtxs u its) p = kidsAt (allCtxs u i.body.2.2) p ++ i.frame.infos u
  | [], _, _, hm, _, _ => by simp at hm
  | j :: is, lo, h, hm, h1, h2 => by
    rw [Placed] at h
    obtain ⟨m, hj, his⟩ := h
    rw [allCtxs]
    by_cases hmem : i ∈ is
    · have ih := within u his hmem h1 h2
      obtain ⟨l, m', hi⟩ := his.mem hmem
      rw [kidsAt_append_ne (by rw [ih]; simp [infos_ne u hi]), ih]
    · simp only [List.mem_cons] at hm
      rcases hm with rfl | hm
      · have hb := hj.bounds
        rw [kidsAt_append_nil (before u his (by omega)), ctxs_eq]
        have hin := main_in u i h1 (by omega : p < i.stop)
        rw [kidsAt_append_ne (by rw [hin]; simp [infos_ne u hj]), hin]
      · exact absurd hm hmem

theorem head_fn {c : Bool} {lo m : Nat} {i : Item} (h : PlacedItem c lo m i) {p : Nat} (hc : ¬ i.Covers p) : ∀ x ∈ kidsAt i.head p, x.kind = .function := by
  have fn : ∀ (n : QString) (a b : Nat), ∀ x ∈ (Ctx.mk ⟨.function, n, a, false⟩ b []).at p, x.kind = .function := by
    intro n a b x hx
    simp only [Ctx.at, kidsAt] at hx
    split at hx
    · simp at hx; subst hx; rfl
    · simp at hx
  cases i with
  | klass n s e its => simp [Item.head, kidsAt]
  | ns names s e stop its => simp [Item.head, kidsAt]
  | method n plo phi s e its => rw [Item.head, kidsAt_single]; exact fn _ _ _
  | func n plo phi s e its => rw [Item.head, kidsAt_single]; exact fn _ _ _
  | closure plo phi uses s e its =>
    cases uses with
    | none => simp only [Item.head]; rw [kidsAt_single]; exact fn _ _ _
    | some ab =>
      obtain ⟨a, b⟩ := ab
      simp only [Item.head]
      have : ¬ (a ≤ p ∧ p < b) := fun hab => hc (Or.inr ⟨a, b, rfl, hab.1, hab.2⟩)
      rw [kidsAt, kidsAt_single, at_out (show p < a ∨ b ≤ p by omega)]
      exact fn _ _ _

theorem not_covers {i : Item} {p : Nat} (h : ¬ i.Covers p) : p < i.body.1 ∨ i.stop ≤ p := by
  cases i <;> simp only [Item.Covers, Item.body, Item.stop, not_or] at h ⊢ <;> omega

/-- Outside of the bodies only the parameters of a function are found. -/
theorem outside (u : CharClass) {c : Bool} {p : Nat} : ∀ {its : List Item} {lo : Nat}, Placed c lo its → (∀ i ∈ its, ¬ i.Covers p) →
    ∀ x ∈ kidsAt (allCtxs u its) p, x.kind = .function
  | [], _, _, _ => by simp [allCtxs, kidsAt]
  | i :: is, lo, h, hc => by
    rw [Placed] at h
    obtain ⟨m, hi, his⟩ := h
    have ih := outside u his (fun j hj => hc j (List.mem_cons_of_mem _ hj))
    have h0 := hc i List.mem_cons_self
    rw [allCtxs]
    by_cases hn : kidsAt (allCtxs u is) p = []
    · rw [kidsAt_append_nil hn, ctxs_eq, kidsAt_append_nil (main_out u i hi (not_covers h0))]
      exact head_fn hi h0
    · rw [kidsAt_append_ne hn]; exact ih

theorem PlacedItem.inner {c : Bool} {lo m : Nat} {i : Item} (h : PlacedItem c lo m i) :
    ∃ c' l, i.body.1 ≤ l ∧ Placed c' l i.body.2.2 ∧ (c' = true ↔ ∃ n s, i.frame = .klass n s) := by
  cases i with
  | klass n s e its => simp only [PlacedItem] at h; exact ⟨true, s + 1, Nat.le_succ s, h.2.2.2.2, by simp [Item.frame]⟩
  | method n plo phi s e its => simp only [PlacedItem] at h; exact ⟨false, s, Nat.le_refl s, h.2.2.2.2.2.2, by simp [Item.frame]⟩
  | func n plo phi s e its => simp only [PlacedItem] at h; exact ⟨false, s, Nat.le_refl s, h.2.2.2.2.2.2, by simp [Item.frame]⟩
  | closure plo phi uses s e its => simp only [PlacedItem] at h; exact ⟨false, s, Nat.le_refl s, h.2.2.2.2.2.2.2, by simp [Item.frame]⟩
  | ns names s e stop its => simp only [PlacedItem] at h; exact ⟨false, s, Nat.le_refl s, h.2.2.2.2.2.2, by simp [Item.frame]⟩

/-- At the very start of the items at most a class is found. -/
theorem atStart (u : CharClass) {c : Bool} {lo p : Nat} {its : List Item} (h : Placed c lo its) (hp : p ≤ lo) : ∀ x ∈ kidsAt (allCtxs u its) p, x.kind = .klass := by
  induction its generalizing lo with
  | nil => simp [allCtxs, kidsAt]
  | cons i is ih =>
    rw [Placed] at h
    obtain ⟨m, hi, his⟩ := h
    have hb := hi.bounds
    rw [allCtxs]
    by_cases hn : kidsAt (allCtxs u is) p = []
    · rw [kidsAt_append_nil hn, ctxs_eq]
      by_cases hm : kidsAt (i.main u) p = []
      · rw [kidsAt_append_nil hm, head_before hi hp]; simp
      · rw [kidsAt_append_ne hm]
        have hin : i.body.1 ≤ p ∧ p < i.stop := by
          refine Decidable.byContradiction fun hno => hm (main_out u i hi ?_)
          omega
        rw [main_in u i hin.1 hin.2]
        cases i with
        | klass n s e its =>
          simp only [PlacedItem] at hi
          simp only [Item.body] at hin ⊢
          rw [before u hi.2.2.2.2 (by omega)]
          simp [Item.frame, Frame.infos]
        | method n plo phi s e its => simp only [PlacedItem] at hi; simp only [Item.body] at hin; omega
        | func n plo phi s e its => simp only [PlacedItem] at hi; simp only [Item.body] at hin; omega
        | closure plo phi uses s e its => simp only [PlacedItem] at hi; simp only [Item.body] at hin; omega
        | ns names s e stop its => simp only [PlacedItem] at hi; simp only [Item.body] at hin; omega
    · rw [kidsAt_append_ne hn]; exact ih his (by omega)

/-- The contexts around a position are those of the bodies around it, perhaps below a parameter list. -/
theorem path (u : CharClass) {p : Nat} {its : List Item} {fs : List Frame} (h : Inside p its fs) : ∀ {c : Bool} {lo : Nat}, Placed c lo its →
    ∃ pre : List Info, (∀ x ∈ pre, x.kind = .function) ∧ kidsAt (allCtxs u its) p = pre ++ fs.flatMap (Frame.infos u) := by
  induction h with
  | here hc => intro c lo hp; exact ⟨_, outside u hp hc, by simp⟩
  | @there its i fs hm h1 h2 _ ih =>
    intro c lo hp
    obtain ⟨l, m, hi⟩ := hp.mem hm
    obtain ⟨c', l', _, hin, _⟩ := hi.inner
    obtain ⟨pre, hpre, he⟩ := ih hin
    exact ⟨pre, hpre, by rw [within u hp hm h1 h2, he]; simp⟩

/-- The start of a body. -/
def Frame.lo : Frame → Nat
  | .klass _ lo => lo
  | .method _ lo => lo
  | .func _ lo => lo
  | .closure lo => lo
  | .ns _ lo => lo

theorem frame_lo (i : Item) : i.frame.lo = i.body.1 := by cases i <;> rfl

/-- The start of a body lies in the bodies around it. -/
theorem start_le {p : Nat} {its : List Item} {fs : List Frame} (h : Inside p its fs) : ∀ {c : Bool} {lo : Nat}, Placed c lo its → ∀ F ∈ fs, lo ≤ F.lo ∧ F.lo ≤ p := by
  induction h with
  | here hc => simp
  | @there its i fs hm h1 h2 _ ih =>
    intro c lo hp F hF
    have hle : ∀ {its : List Item} {lo : Nat}, Placed c lo its → i ∈ its → lo ≤ i.body.1 := by
      intro its
      induction its with
      | nil => intro lo _ hm; simp at hm
      | cons j is ihj =>
        intro lo hp hm
        rw [Placed] at hp
        obtain ⟨m, hj, his⟩ := hp
        have hb := hj.bounds
        simp only [List.mem_cons] at hm
        rcases hm with rfl | hm
        · omega
        · have := ihj his hm; omega
    have h0 := hle hp hm
    obtain ⟨l, m, hi⟩ := hp.mem hm
    obtain ⟨c', l', hl, hin, _⟩ := hi.inner
    simp only [List.mem_append, List.mem_singleton] at hF
    rcases hF with hF | rfl
    · have := ih hin F hF; omega
    · rw [frame_lo]; omega

/-- At the start of a body the contexts of this body and of those around it are found, perhaps below a class that starts there. -/
theorem path_start (u : CharClass) {p : Nat} {its : List Item} {fs : List Frame} (h : Inside p its fs) : ∀ {c : Bool} {lo : Nat}, Placed c lo its →
    ∀ {pre suf : List Frame} {F : Frame}, fs = pre ++ F :: suf →
      ∃ k : List Info, (∀ x ∈ k, x.kind = .klass) ∧ kidsAt (allCtxs u its) F.lo = k ++ (F :: suf).flatMap (Frame.infos u) := by
  induction h with
  | here hc => intro c lo hp pre suf F he; simp at he
  | @there its i fs hm h1 h2 hins ih =>
    intro c lo hp pre suf F he
    obtain ⟨l, m, hi⟩ := hp.mem hm
    obtain ⟨c', l', hl, hin, _⟩ := hi.inner
    rcases List.eq_nil_or_concat suf with rfl | ⟨suf', g, rfl⟩
    · have he' : fs = pre ∧ i.frame = F := by
        have := List.append_inj' he (by simp)
        simpa using this
      obtain ⟨rfl, rfl⟩ := he'
      rw [frame_lo, within u hp hm (Nat.le_refl _) (by omega)]
      exact ⟨_, atStart u hin hl, by simp⟩
    · rw [List.concat_eq_append] at he ⊢
      have he' : fs = pre ++ F :: suf' ∧ i.frame = g := by
        have h' : fs ++ [i.frame] = (pre ++ F :: suf') ++ [g] := by simpa using he
        have := List.append_inj' h' (by simp)
        simpa using this
      obtain ⟨he1, rfl⟩ := he'
      obtain ⟨k, hk, hke⟩ := ih hin he1
      have hF := start_le hins hin F (by rw [he1]; simp)
      rw [within u hp hm (by omega) (by omega), hke]
      exact ⟨k, hk, by simp⟩

/-- Methods, and nothing else, lie in classes. -/
def HeadClass (c : Bool) : List Frame → Prop
  | [] => c = true
  | .klass _ _ :: _ => True
  | _ => False

/-- The frame of a method. -/
def Frame.IsMethod : Frame → Prop
  | .method _ _ => True
  | _ => False

theorem methods {p : Nat} {its : List Item} {fs : List Frame} (h : Inside p its fs) : ∀ {c : Bool} {lo : Nat}, Placed c lo its →
    ∀ {pre suf : List Frame} {F : Frame}, fs = pre ++ F :: suf → (F.IsMethod ↔ HeadClass c suf) := by
  induction h with
  | here hc => intro c lo hp pre suf F he; simp at he
  | @there its i fs hm h1 h2 hins ih =>
    intro c lo hp pre suf F he
    obtain ⟨l, m, hi⟩ := hp.mem hm
    obtain ⟨c', l', hl, hin, hk⟩ := hi.inner
    rcases List.eq_nil_or_concat suf with rfl | ⟨suf', g, rfl⟩
    · have he' : fs = pre ∧ i.frame = F := by
        have := List.append_inj' he (by simp)
        simpa using this
      obtain ⟨rfl, rfl⟩ := he'
      cases i <;> simp only [PlacedItem] at hi <;> simp [Item.frame, Frame.IsMethod, HeadClass, hi.1]
    · rw [List.concat_eq_append] at he ⊢
      have he' : fs = pre ++ F :: suf' ∧ i.frame = g := by
        have h' : fs ++ [i.frame] = (pre ++ F :: suf') ++ [g] := by simpa using he
        have := List.append_inj' h' (by simp)
        simpa using this
      obtain ⟨he1, rfl⟩ := he'
      rw [ih hin he1]
      cases suf' with
      | nil =>
        simp only [HeadClass, List.nil_append, hk]
        cases hf : i.frame <;> simp
      | cons x xs => cases x <;> simp [HeadClass]

/-! ### the properties -/

theorem dropWhile_all {α : Type} {q : α → Bool} : ∀ {l r : List α}, (∀ x ∈ l, q x = true) → (l ++ r).dropWhile q = r.dropWhile q
  | [], r, _ => rfl
  | x :: l, r, h => by
    rw [List.cons_append, List.dropWhile_cons_of_pos (h x List.mem_cons_self)]
    exact dropWhile_all (fun y hy => h y (List.mem_cons_of_mem _ hy))

/-- The global context. -/
def glob : Info := ⟨.global, [], 0, false⟩

theorem top_at (u : CharClass) {p size : Nat} (its : List Item) (hs : p < size) : (top u size its).at p = kidsAt (allCtxs u its) p ++ [glob] :=
  at_in (Nat.zero_le p) hs

theorem ns_kinds (u : CharClass) (names : List QString) (lo : Nat) : ∀ x ∈ (Frame.ns names lo).infos u, x.kind = .namespace := by
  intro x hx
  simp only [Frame.infos, List.mem_reverse, List.mem_map] at hx
  obtain ⟨n, _, rfl⟩ := hx
  rfl

theorem drop_other (u : CharClass) : ∀ fs : List Frame, (fs.flatMap (Frame.infos u) ++ [glob]).dropWhile (fun i => i.kind ≠ .other)
    = match innerFn fs with
      | none => []
      | some (F, suf) => F.infos u ++ (suf.flatMap (Frame.infos u) ++ [glob])
  | [] => by simp [innerFn, glob]
  | .klass n lo :: fs => by
    rw [List.flatMap_cons, List.append_assoc, dropWhile_all (by simp [Frame.infos]), drop_other u fs, innerFn] <;> simp
  | .ns names lo :: fs => by
    rw [List.flatMap_cons, List.append_assoc, dropWhile_all (by intro x hx; simp [ns_kinds u names lo x hx]), drop_other u fs, innerFn] <;> simp
  | .method n lo :: fs => by simp [innerFn, Frame.infos]
  | .func n lo :: fs => by simp [innerFn, Frame.infos]
  | .closure lo :: fs => by simp [innerFn, Frame.infos]

theorem drop_class (u : CharClass) : ∀ fs : List Frame, ((fs.flatMap (Frame.infos u) ++ [glob]).dropWhile (fun i => i.kind ≠ .klass)).head?.map Info.name
    = (innerClass fs).map (lowerStr u)
  | [] => by simp [innerClass, glob]
  | .klass n lo :: fs => by simp [innerClass, Frame.infos]
  | .ns names lo :: fs => by
    rw [List.flatMap_cons, List.append_assoc, dropWhile_all (by intro x hx; simp [ns_kinds u names lo x hx]), drop_class u fs, innerClass]
    simp
  | .method n lo :: fs => by
    rw [List.flatMap_cons, List.append_assoc, dropWhile_all (by simp [Frame.infos]), drop_class u fs, innerClass]
    simp
  | .func n lo :: fs => by
    rw [List.flatMap_cons, List.append_assoc, dropWhile_all (by simp [Frame.infos]), drop_class u fs, innerClass]
    simp
  | .closure lo :: fs => by
    rw [List.flatMap_cons, List.append_assoc, dropWhile_all (by simp [Frame.infos]), drop_class u fs, innerClass]
    simp

theorem drop_ns (u : CharClass) : ∀ fs : List Frame, (∀ names lo, Frame.ns names lo ∈ fs → names ≠ []) →
    ((fs.flatMap (Frame.infos u) ++ [glob]).dropWhile (fun i => i.kind ≠ .namespace)).head?.map Info.name
    = (innerNs fs).map (fun names => lowerStr u (names.getLastD []))
  | [], _ => by simp [innerNs, glob]
  | .ns names lo :: fs, h => by
    have hn := h names lo List.mem_cons_self
    rcases List.eq_nil_or_concat names with rfl | ⟨ns, n, rfl⟩
    · exact absurd rfl hn
    · simp [innerNs, Frame.infos]
  | .klass n lo :: fs, h => by
    rw [List.flatMap_cons, List.append_assoc, dropWhile_all (by simp [Frame.infos]), drop_ns u fs (fun a b hm => h a b (List.mem_cons_of_mem _ hm)), innerNs]
    simp
  | .method n lo :: fs, h => by
    rw [List.flatMap_cons, List.append_assoc, dropWhile_all (by simp [Frame.infos]), drop_ns u fs (fun a b hm => h a b (List.mem_cons_of_mem _ hm)), innerNs]
    simp
  | .func n lo :: fs, h => by
    rw [List.flatMap_cons, List.append_assoc, dropWhile_all (by simp [Frame.infos]), drop_ns u fs (fun a b hm => h a b (List.mem_cons_of_mem _ hm)), innerNs]
    simp
  | .closure lo :: fs, h => by
    rw [List.flatMap_cons, List.append_assoc, dropWhile_all (by simp [Frame.infos]), drop_ns u fs (fun a b hm => h a b (List.mem_cons_of_mem _ hm)), innerNs]
    simp

theorem find_eq (u : CharClass) {p size : Nat} {its : List Item} {fs : List Frame} (hp : Placed false 0 its) (h : Inside p its fs) (hs : p < size) (k : Kind) (hk : k ≠ .function) :
    find (top u size its) p k = (fs.flatMap (Frame.infos u) ++ [glob]).dropWhile (fun i => i.kind ≠ k) := by
  obtain ⟨pre, hpre, he⟩ := path u h hp
  rw [find, top_at u its hs, he, List.append_assoc, dropWhile_all]
  intro x hx
  simp [hpre x hx, Ne.symm hk]

theorem ns_ne {p : Nat} {its : List Item} {fs : List Frame} (h : Inside p its fs) : ∀ {c : Bool} {lo : Nat}, Placed c lo its →
    ∀ names l, Frame.ns names l ∈ fs → names ≠ [] := by
  induction h with
  | here hc => simp
  | @there its i fs hm h1 h2 _ ih =>
    intro c lo hp names l hF
    obtain ⟨l', m, hi⟩ := hp.mem hm
    obtain ⟨c', l'', _, hin, _⟩ := hi.inner
    simp only [List.mem_append, List.mem_singleton] at hF
    rcases hF with hF | hF
    · exact ih hin names l hF
    · cases i <;> simp [Item.frame] at hF
      obtain ⟨rfl, rfl⟩ := hF
      simp only [PlacedItem] at hi
      exact hi.2.1

/-- **`__CLASS__` (and `__TRAIT__`) shows the name of the innermost class, interface or trait around the position, in lower case.** -/
theorem class_value (u : CharClass) (url dir : QString) (line : Nat) {p size : Nat} {its : List Item} {fs : List Frame} (hp : Placed false 0 its) (h : Inside p its fs) (hs : p < size) :
    value url dir line (top u size its) p .cls = (innerClass fs).elim .empty (fun n => .text (lowerStr u n)) ∧
    value url dir line (top u size its) p .trait = (innerClass fs).elim .empty (fun n => .text (lowerStr u n)) := by
  have := drop_class u fs
  simp only [value, find_eq u hp h hs .klass (by decide)]
  cases hd : (fs.flatMap (Frame.infos u) ++ [glob]).dropWhile (fun i => i.kind ≠ .klass) with
  | nil =>
    rw [hd] at this
    cases hi : innerClass fs with
    | none => simp
    | some n => simp [hi] at this
  | cons x l =>
    rw [hd] at this
    cases hi : innerClass fs with
    | none => simp [hi] at this
    | some n => simp [hi] at this; simp [this]

/-- **`__NAMESPACE__` shows the last component of the name of the namespace around the position, in lower case.** -/
theorem namespace_value (u : CharClass) (url dir : QString) (line : Nat) {p size : Nat} {its : List Item} {fs : List Frame} (hp : Placed false 0 its) (h : Inside p its fs) (hs : p < size) :
    value url dir line (top u size its) p .namespace = (innerNs fs).elim .empty (fun names => .text (lowerStr u (names.getLastD []))) := by
  have := drop_ns u fs (ns_ne h hp)
  simp only [value, find_eq u hp h hs .namespace (by decide)]
  cases hd : (fs.flatMap (Frame.infos u) ++ [glob]).dropWhile (fun i => i.kind ≠ .namespace) with
  | nil =>
    rw [hd] at this
    cases hi : innerNs fs with
    | none => simp
    | some n => simp [hi] at this
  | cons x l =>
    rw [hd] at this
    cases hi : innerNs fs with
    | none => simp [hi] at this
    | some n => simp [hi] at this; simp [this]

/-- The name of a function or method as it is written; a closure has none. -/
def Frame.fnName : Frame → QString
  | .method n _ => n
  | .func n _ => n
  | _ => []

theorem innerFn_infos (u : CharClass) : ∀ {fs : List Frame} {F : Frame} {suf : List Frame}, innerFn fs = some (F, suf) →
    F.infos u = [⟨.other, F.fnName, F.lo, true⟩] ∧ (∃ pre, fs = pre ++ F :: suf)
  | [], _, _, h => by simp [innerFn] at h
  | .method n lo :: fs, F, suf, h => by simp [innerFn] at h; obtain ⟨rfl, rfl⟩ := h; exact ⟨rfl, [], rfl⟩
  | .func n lo :: fs, F, suf, h => by simp [innerFn] at h; obtain ⟨rfl, rfl⟩ := h; exact ⟨rfl, [], rfl⟩
  | .closure lo :: fs, F, suf, h => by simp [innerFn] at h; obtain ⟨rfl, rfl⟩ := h; exact ⟨rfl, [], rfl⟩
  | .klass n lo :: fs, F, suf, h => by
    obtain ⟨h1, pre, h2⟩ := innerFn_infos u (fs := fs) (by simpa [innerFn] using h)
    exact ⟨h1, .klass n lo :: pre, by rw [h2]; rfl⟩
  | .ns n lo :: fs, F, suf, h => by
    obtain ⟨h1, pre, h2⟩ := innerFn_infos u (fs := fs) (by simpa [innerFn] using h)
    exact ⟨h1, .ns n lo :: pre, by rw [h2]; rfl⟩

/-- **`__FUNCTION__` shows the name of the innermost function or method as it is written, an empty name in a closure.** -/
theorem function_value (u : CharClass) (url dir : QString) (line : Nat) {p size : Nat} {its : List Item} {fs : List Frame} (hp : Placed false 0 its) (h : Inside p its fs) (hs : p < size) :
    value url dir line (top u size its) p .function = (innerFn fs).elim .empty (fun F => .text F.1.fnName) := by
  simp only [value, find_eq u hp h hs .other (by decide), drop_other]
  cases hi : innerFn fs with
  | none => simp
  | some x =>
    obtain ⟨F, suf⟩ := x
    simp [(innerFn_infos u hi).1]

/-- `__FILE__` shows the address of the file, `__DIR__` the given directory and `__LINE__` the number of the line, counted from 1. -/
theorem file_value (url dir : QString) (line : Nat) (t : Ctx) (p : Nat) :
    value url dir line t p .file = .text url ∧ value url dir line t p .dir = .text dir ∧
    value url dir line t p .line = .text ((Nat.toDigits 10 (line + 1)).map Char.toNat) := ⟨rfl, rfl, rfl⟩

/-- **In a method that is the innermost function around the position `__METHOD__` shows the class, in lower case, and the method.** -/
theorem method_value_partial (u : CharClass) {p size : Nat} {its : List Item} {fs : List Frame} (hp : Placed false 0 its) (h : Inside p its fs) (hs : p < size)
    {n : QString} {lo : Nat} {suf : List Frame} (hf : innerFn fs = some (.method n lo, suf)) :
    ∃ c, innerClass suf = some c ∧ ∀ k, methodLoop (top u size its) (k + 1) p = some (.text (lowerStr u c ++ q! "::" ++ n)) := by
  obtain ⟨hinf, pre, he⟩ := innerFn_infos u hf
  have hm := (methods h hp he).1 trivial
  cases suf with
  | nil => simp [HeadClass] at hm
  | cons G suf =>
    cases G with
    | klass c l =>
      refine ⟨c, rfl, fun k => ?_⟩
      simp only [methodLoop, find_eq u hp h hs .other (by decide), drop_other, hf]
      simp [Frame.infos]
    | _ => simp [HeadClass] at hm

/-- Outside of all functions it shows that there is no method. -/
theorem method_none (u : CharClass) {p size : Nat} {its : List Item} {fs : List Frame} (hp : Placed false 0 its) (h : Inside p its fs) (hs : p < size)
    (hf : innerFn fs = none) (k : Nat) : methodLoop (top u size its) (k + 1) p = some .empty := by
  simp only [methodLoop, find_eq u hp h hs .other (by decide), drop_other, hf]

/-- **In a function that is not a method, or a closure, the loop never ends, whatever is around the function.** -/
theorem method_hangs (u : CharClass) {p size : Nat} {its : List Item} {fs : List Frame} (hp : Placed false 0 its) (h : Inside p its fs) (hs : p < size)
    {F : Frame} {suf : List Frame} (hf : innerFn fs = some (F, suf)) (hF : ¬ F.IsMethod) (k : Nat) : methodLoop (top u size its) k p = none := by
  obtain ⟨hinf, pre, he⟩ := innerFn_infos u hf
  have hnk : ¬ HeadClass false suf := fun hc => hF ((methods h hp he).2 hc)
  have hle := start_le h hp F (by rw [he]; simp)
  -- the context around the function is not a class
  have hnext : ∃ q l, suf.flatMap (Frame.infos u) ++ [glob] = q :: l ∧ q.kind ≠ .klass := by
    cases suf with
    | nil => exact ⟨glob, [], rfl, by decide⟩
    | cons G suf =>
      cases G with
      | klass c l => exact absurd trivial hnk
      | method n l => exact ⟨_, _, rfl, fun hc => by cases hc⟩
      | func n l => exact ⟨_, _, rfl, fun hc => by cases hc⟩
      | closure l => exact ⟨_, _, rfl, fun hc => by cases hc⟩
      | ns names l =>
        have hne : names ≠ [] := ns_ne h hp names l (by rw [he]; simp)
        have hk := ns_kinds u names l
        cases hi : (Frame.ns names l).infos u with
        | nil => simp [Frame.infos] at hi; exact absurd hi hne
        | cons x xs =>
          refine ⟨x, _, by rw [List.flatMap_cons, hi]; rfl, ?_⟩
          rw [hk x (by rw [hi]; simp)]
          decide
  obtain ⟨q, l, hq, hqk⟩ := hnext
  -- one round at the position, and one at the start of the body
  have r1 : find (top u size its) p .other = ⟨.other, F.fnName, F.lo, true⟩ :: q :: l := by
    rw [find_eq u hp h hs .other (by decide), drop_other, hf]
    simp only [hinf, hq, List.cons_append, List.nil_append]
  have r2 : find (top u size its) F.lo .other = ⟨.other, F.fnName, F.lo, true⟩ :: q :: l := by
    obtain ⟨ks, hks, hke⟩ := path_start u h hp he
    rw [find, top_at u its (by omega), hke, List.append_assoc, dropWhile_all (by intro x hx; simp [hks x hx]), List.flatMap_cons, hinf, List.append_assoc, hq]
    simp
  have loop : ∀ k, methodLoop (top u size its) k F.lo = none := by
    intro k
    induction k with
    | zero => rfl
    | succ k ih => simp only [methodLoop, r2, if_neg hqk, ih]
  cases k with
  | zero => rfl
  | succ k => simp only [methodLoop, r1, if_neg hqk, loop]

/-! ### examples -/

/-- `<?php namespace A\B; class Foo { function bar() { return function () { __METHOD__; }; } } function f() { __METHOD__; }`. -/
def sample : List Item :=
  [.ns [q! "A", q! "B"] 20 200 200
    [.klass (q! "Foo") 21 90 [.method (q! "Bar") 46 46 48 88 [.closure 66 66 none 70 81 []]],
     .func (q! "f") 104 104 108 119 []]]

theorem sample_placed : Placed false 0 sample := by
  refine ⟨200, ⟨rfl, by decide, by decide, by decide, by decide, by decide, ?_⟩, trivial⟩
  refine ⟨90, ⟨rfl, by decide, by decide, by decide, ?_⟩, ⟨119, ⟨rfl, by decide, by decide, by decide, by decide, by decide, trivial⟩, trivial⟩⟩
  refine ⟨88, ⟨rfl, by decide, by decide, by decide, by decide, by decide, ?_⟩, trivial⟩
  exact ⟨81, ⟨rfl, by decide, by decide, by decide, by decide, by decide, fun _ _ h => by simp at h, trivial⟩, trivial⟩

/-- In the method, before the closure. -/
theorem sample_method : Inside 50 sample [.method (q! "Bar") 48, .klass (q! "Foo") 21, .ns [q! "A", q! "B"] 20] := by
  refine .there (fs := [_, _]) List.mem_cons_self (by decide) (by decide) ?_
  refine .there (fs := [_]) List.mem_cons_self (by decide) (by decide) ?_
  refine .there (fs := []) List.mem_cons_self (by decide) (by decide) (.here ?_)
  intro i hi
  simp [Item.body] at hi
  subst hi
  simp [Item.Covers]

/-- In the function. -/
theorem sample_func : Inside 110 sample [.func (q! "f") 108, .ns [q! "A", q! "B"] 20] := by
  refine .there (fs := [_]) List.mem_cons_self (by decide) (by decide) ?_
  exact .there (fs := []) (List.mem_cons_of_mem _ List.mem_cons_self) (by decide) (by decide) (.here (by simp [Item.body]))

example : methodLoop (top asciiClass 200 sample) 1 50 = some (.text (q! "foo::Bar")) := by decide +kernel
example : ∀ k, methodLoop (top asciiClass 200 sample) k 110 = none := fun k =>
  method_hangs asciiClass sample_placed sample_func (by decide) rfl (by simp [Frame.IsMethod]) k
example : value [] [] 0 (top asciiClass 200 sample) 110 .namespace = .text (q! "b") := by decide +kernel
example : value [] [] 0 (top asciiClass 200 sample) 50 .cls = .text (q! "foo") := by decide +kernel
example : value [] [] 0 (top asciiClass 200 sample) 110 .function = .text (q! "f") := by decide +kernel

/-- PHP's value of `__CLASS__` is the name as written: the tool tip differs as soon as there is an upper case letter. -/
theorem class_lowered : value [] [] 0 (top asciiClass 200 sample) 50 .cls ≠ .text (q! "Foo") := by decide +kernel

end KPhp.MagicConstant

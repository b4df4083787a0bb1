import Verif.Model.Result
/-!
# src/tokenization : tokenizer and token iterator
-/
set_option autoImplicit false
namespace ERegex

/-- Token and separator definitions after `separator_splitter` (src/tokenization/iterator.hpp:30-65): compiled trees of
`"^" + pattern`, in the order of definition.  Token types are natural numbers (the user's enum).  Both lists are
non-empty, otherwise `std::array {…}` / `std::get<0>` do not compile (lines 76-77, 105). -/
structure TokDefs where
  tokens : List (Nat × Node)
  seps : List Node

/-- Compile definitions: `Sum.inl (type, pattern)` is `token {type, pattern}`, `Sum.inr pattern` is
`separator {pattern}` (src/tokenization/token.hpp:11-38, iterator.hpp:30-65). -/
def splitDefs : List (Nat × List Ch ⊕ List Ch) → Option TokDefs
  | [] => some { tokens := [], seps := [] }
  | .inl (ty, p) :: ds =>
    match compile (str "^" ++ p), splitDefs ds with
    | some t, some r => some { r with tokens := (ty, t) :: r.tokens }
    | _, _ => none
  | .inr p :: ds =>
    match compile (str "^" ++ p), splitDefs ds with
    | some t, some r => some { r with seps := t :: r.seps }
    | _, _ => none

/-- The memory seen from the sub-view that begins at offset `b` of the input and ends at the input's end. -/
def Ctx.sub (cx : Ctx) (b : Nat) : Ctx :=
  { pre := cx.pre ++ cx.query.take b, query := cx.query.drop b, post := cx.post }

/-- `token_t` (src/tokenization/iterator.hpp:89-93): value as offsets into the input (`none` = null view), type. -/
structure Token where
  value : View
  type : Nat
  deriving DecidableEq, Repr

/-- `iterator` (src/tokenization/iterator.hpp:95-99): `current` (`none` = null view, otherwise the offset where it
begins; it always ends at the end of the input) and `last_match`.  `original_input` is the context's query;
`valid` is never read. -/
structure TokIt where
  current : Option Nat
  last : Token
  deriving DecidableEq, Repr

/-- `literal_string_view::size` (src/utilities/literal_string_view.hpp:67-70). -/
def viewSize : View → Int
  | none => 0
  | some (b, e) => e - b

/-- `regex(current).to_view()` (src/tokenization/iterator.hpp:105,132), in coordinates of the input.
Outer `none` = undefined behaviour or not finished within the fuel. -/
def matchAt (cx : Ctx) (fuel : Nat) (b : Nat) (t : Node) : Option View :=
  match construct (cx.sub b) t fuel with
  | .ok st => some ((toView st).map (fun v => (v.1 + b, v.2 + b)))
  | _ => none

/-- `std::max_element` by view size (src/tokenization/iterator.hpp:109-115,137-142): the first of the largest. -/
def maxElement {α : Type} (size : α → Int) : List α → Option α
  | [] => none
  | x :: xs =>
    match maxElement size xs with
    | none => some x
    | some y => if size x < size y then some y else some x

/-- `match_separator` (src/tokenization/iterator.hpp:101-125) on the current offset: `none` = undefined behaviour,
`some none` = no separator, `some (some b)` = new current offset.  A view that leaves the input (possible only for
trees outside `C18`'s fragment) is not followed further: it counts as undefined behaviour. -/
def matchSeparator (cx : Ctx) (fuel : Nat) (d : TokDefs) (b : Nat) : Option (Option Nat) :=
  match d.seps.mapM (matchAt cx fuel b) with
  | none => none
  | some vs =>
    match maxElement viewSize vs with
    | some (some (s, e)) => if e - s > 0 then (if e ≤ cx.qend then some (some e.toNat) else none) else some none
    | _ => some none

/-- `match_token` (src/tokenization/iterator.hpp:127-153). -/
def matchToken (cx : Ctx) (fuel : Nat) (d : TokDefs) (b : Nat) : Option (Option (Nat × Token)) :=
  match d.tokens.mapM (fun tt => (matchAt cx fuel b tt.2).map (fun v => ({ value := v, type := tt.1 } : Token))) with
  | none => none
  | some ms =>
    match maxElement (fun m => viewSize m.value) ms with
    | some { value := some (s, e), type := ty } =>
      if e - s > 0 then
        (if e ≤ cx.qend then some (some (e.toNat, { value := some (s, e), type := ty })) else none)
      else some none
    | _ => some none

/-- `invalidate` (src/tokenization/iterator.hpp:227-231). -/
def invalid : TokIt := { current := none, last := { value := none, type := 0 } }

/-- The memory of the null view: nothing is readable. -/
def Ctx.null : Ctx := { pre := [], query := [], post := [] }

/-- `operator++` (src/tokenization/iterator.hpp:178-194).  On the null view the separators run on an empty query of
which no byte is readable; no view of positive size can come out of that (`Proofs/TokenIter.lean`), so the iterator is
invalidated.  Simplification: the input itself is not the null view. -/
def TokIt.incr (cx : Ctx) (fuel : Nat) (d : TokDefs) (it : TokIt) : Option TokIt :=
  match it.current with
  | none =>
    match d.seps.mapM (matchAt Ctx.null fuel 0) with
    | none => none
    | some _ => some invalid
  | some b =>
    match matchSeparator cx fuel d b with
    | none => none
    | some none =>
      if b ≠ 0 then some invalid
      else
        match matchToken cx fuel d b with
        | none => none
        | some none => some invalid
        | some (some (b', tk)) => some { current := some b', last := tk }
    | some (some b1) =>
      match matchToken cx fuel d b1 with
      | none => none
      | some none => some invalid
      | some (some (b', tk)) => some { current := some b', last := tk }

/-- Constructor of `iterator` (src/tokenization/iterator.hpp:156-163), i.e. `tokenizer::match`
(src/tokenization/tokenizer.hpp:16-24). -/
def TokIt.make (cx : Ctx) (fuel : Nat) (d : TokDefs) : Option TokIt :=
  let it : TokIt := { current := some 0, last := { value := none, type := 0 } }
  if cx.query.isEmpty then some it else it.incr cx fuel d

/-- `operator bool` (src/tokenization/iterator.hpp:222-225). -/
def TokIt.toBool (it : TokIt) : Bool := decide (viewSize it.last.value ≠ 0)

/-- `end()` (src/tokenization/iterator.hpp:196-199): an iterator over the null view. -/
def TokIt.endIt : TokIt := invalid

/-- The view `current` in coordinates of the input. -/
def TokIt.currentView (cx : Ctx) (it : TokIt) : View := it.current.map (fun b => ((b : Int), cx.qend))

/-- `literal_string_view::operator==` on two views of the input, `none` being the null view
(src/utilities/literal_string_view.hpp:78-100). -/
def viewEqO (cx : Ctx) (a b : View) : Option Bool :=
  match a, b with
  | none, none => some true
  | some v, none => some (decide (v.2 - v.1 = 0))
  | none, some v => some (decide (v.2 - v.1 = 0))
  | some v, some w => viewEq cx.read v w

/-- `operator==` (src/tokenization/iterator.hpp:201-205). -/
def TokIt.eqIt (cx : Ctx) (a b : TokIt) : Option Bool :=
  match viewEqO cx (a.currentView cx) (b.currentView cx) with
  | none => none
  | some false => some false
  | some true => viewEqO cx a.last.value b.last.value

/-- Tokens visited by `for (auto t : tokenizer(input))`, at most `n` (begin, `!=`, `*`, `++`;
src/tokenization/iterator.hpp:173-210).  The flag tells whether the loop ended. -/
def TokIt.visit (cx : Ctx) (fuel : Nat) (d : TokDefs) : Nat → TokIt → Option (List Token × Bool)
  | 0, it => (it.eqIt cx .endIt).map (fun e => ([], e))
  | n + 1, it =>
    match it.eqIt cx .endIt with
    | none => none
    | some true => some ([], true)
    | some false =>
      match it.incr cx fuel d with
      | none => none
      | some it' => (TokIt.visit cx fuel d n it').map (fun r => (it.last :: r.1, r.2))

end ERegex

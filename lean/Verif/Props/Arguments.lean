import Verif.Model.Argument
import Verif.Props.Written
import Verif.Props.Same
/-!
# C68 : what is searched when a string is handed over

A string literal with the characters `text` is an array with the elements `text ++ [0]` (and `text` may contain NUL characters).
-/
set_option autoImplicit false
namespace ERegex.Props
open ERegex ERegex.Spec
open ERegex.Conformance (lit m)

/-- `n` results, one after the other: the state after `match` and `n` calls of `next()`. -/
theorem nth_reach {cx : Ctx} {t : Node} {fuel : Nat} : ∀ (n : Nat) {st : St}, nth cx t fuel n = .ok st → Reach cx t st
  | 0, st, h => .make h
  | n + 1, st, h => by
    simp only [nth] at h
    cases e : nth cx t fuel n with
    | ok x => rw [e] at h; exact .next (nth_reach n e) h
    | ub => rw [e] at h; cases h
    | timeout => rw [e] at h; cases h

theorem nth_congr {cx cy : Ctx} {t : Node} {fuel : Nat} (h1 : construct cx t fuel = construct cy t fuel)
    (h2 : ∀ st, Reach cx t st → next cx t fuel st = next cy t fuel st) : ∀ n, nth cx t fuel n = nth cy t fuel n
  | 0 => h1
  | n + 1 => by
    simp only [nth]
    rw [← nth_congr h1 h2 n]
    cases e : nth cx t fuel n with
    | ok x => exact h2 x (nth_reach n e)
    | ub => rfl
    | timeout => rfl

theorem nth_defined {cx : Ctx} {t : Node} {fuel : Nat} (h1 : construct cx t fuel ≠ .ub)
    (h2 : ∀ st, Reach cx t st → next cx t fuel st ≠ .ub) : ∀ n, nth cx t fuel n ≠ .ub
  | 0 => h1
  | n + 1 => by
    simp only [nth]
    cases e : nth cx t fuel n with
    | ok x => exact h2 x (nth_reach n e)
    | ub => exact absurd e (nth_defined h1 h2 n)
    | timeout => simp

/-- **C68.** For every pattern, and whatever surrounds the arguments in memory: a string literal is searched without its terminator, like a
`string_view` of its characters (NUL characters included) that a NUL byte follows; and any character array like a `string_view` of all its
elements but the last, whatever they are. -/
theorem C68_array (p : List Int) (t : Node) (_h : compile p = some t) (before after : List Int) (fuel n : Nat) :
    (∀ text, nth (Arg.array before (text ++ [0]) after).ctx t fuel n = nth (Arg.view before text (0 :: after)).ctx t fuel n) ∧
    (∀ body last, nth (Arg.array before (body ++ [last]) after).ctx t fuel n = nth (Arg.view before body (last :: after)).ctx t fuel n) := by
  have h : ∀ body last, nth (Arg.array before (body ++ [last]) after).ctx t fuel n = nth (Arg.view before body (last :: after)).ctx t fuel n := by
    intro body last
    simp [Arg.ctx]
  exact ⟨fun text => h text 0, h⟩

/-- **C68.** A string literal gives the same results wherever it is, for `match` and every `next()`, also with `$`; and so does a `string_view` that a NUL byte
follows.  (Condition on the pattern as written, as in C19.) -/
theorem C68_literal_partial (as : Alts) (hok : as.ok = true) (ht : as.tame true false 1 = true) :
    ∃ t, compile as.spell = some t ∧ ∀ (text before after before' after' : List Int) (fuel n : Nat),
      nth (Arg.array before (text ++ [0]) after).ctx t fuel n ≠ .ub ∧
      nth (Arg.array before (text ++ [0]) after).ctx t fuel n = nth (Arg.view before' text (0 :: after')).ctx t fuel n := by
  obtain ⟨t, h1, h2⟩ := C19_written_partial as hok ht
  refine ⟨t, h1, fun text before after before' after' fuel n => ?_⟩
  have key : ∀ b a : List Int, nth (Arg.view b text (0 :: a)).ctx t fuel n = nth (cstr text) t fuel n := fun b a =>
    nth_congr ((h2 (Arg.view b text (0 :: a)).ctx rfl).1 fuel).1 (fun st hr => (((h2 (Arg.view b text (0 :: a)).ctx rfl).2 st hr).1 fuel).1) n
  rw [((C68_array _ t h1 before after fuel n).1 text), key, key]
  exact ⟨nth_defined ((h2 (cstr text) rfl).1 fuel).2 (fun st hr => (((h2 (cstr text) rfl).2 st hr).1 fuel).2) n, rfl⟩

/-- **C68 (partial).** A string literal and a `string_view` of its characters give the same results, wherever they are and whatever follows the characters of the
`string_view`: the same outcome of `match` and of every `next()`, with the same groups.  (Condition on the pattern as written, as in C18.)
Missing: the other patterns, for which what follows the `string_view` in memory can matter (`C68_refuted_view`). -/
theorem C68_view_partial (as : Alts) (hok : as.ok = true) (ht : as.tame false false 1 = true) :
    ∃ t, compile as.spell = some t ∧ ∀ (text before after before' after' : List Int) (fuel n : Nat),
      nth (Arg.array before (text ++ [0]) after).ctx t fuel n ≠ .ub ∧
      nth (Arg.array before (text ++ [0]) after).ctx t fuel n = nth (Arg.view before' text after').ctx t fuel n := by
  obtain ⟨t, h1, h2⟩ := C18_written_partial as hok ht
  refine ⟨t, h1, fun text before after before' after' fuel n => ?_⟩
  have key : ∀ b a : List Int, nth (Arg.view b text a).ctx t fuel n = nth (bare text) t fuel n := fun b a =>
    nth_congr ((h2 (Arg.view b text a).ctx).1 fuel).1 (fun st hr => (((h2 (Arg.view b text a).ctx).2 st hr).1 fuel).1) n
  rw [((C68_array _ t h1 before after fuel n).1 text), key, key]
  exact ⟨nth_defined ((h2 (bare text)).1 fuel).2 (fun st hr => (((h2 (bare text)).2 st hr).1 fuel).2) n, rfl⟩

/-! ## the hypotheses are met -/

example : samplePattern.ok = true ∧ samplePattern.tame true false 1 = true ∧ tameSample.ok = true ∧ tameSample.tame false false 1 = true := by decide

/-- What `match` reports for `p` on the argument. -/
private def tells (p : String) (x : Arg) : Option (List (Option String)) :=
  match compile (str p) with
  | none => none
  | some t => Conformance.nth x.ctx t 0 (construct x.ctx t (x.ctx.query.length + 1))

/-! ## where it goes wrong -/

/-- A buffer is not searched up to the first NUL but as a whole: `char buf[5] = "ab";` is searched for `^ab$` as the four characters `ab`, NUL, NUL, and nothing is found,
although it is in the literal `"ab"`; and `b.` finds a text with a NUL in it. -/
theorem C68_refuted_buffer :
    tells "^ab$" (.array [] [97, 98, 0] []) = some [some "ab"] ∧ tells "^ab$" (.array [] [97, 98, 0, 0, 0] []) = none ∧
      tells "b." (.array [] [97, 98, 0, 0, 0] []) = some [some "b\x00"] := by decide +kernel

/-- An array without terminator loses its last character: `char buf[2] = {'a', 'b'};` does not contain `b`. -/
theorem C68_refuted_last : tells "b" (.array [] [97, 98] []) = none ∧ tells "b" (.view [] [97, 98] []) = some [some "b"] := by decide +kernel

/-- What follows a `string_view` can matter: with `a$`, a newline there is taken into the result. -/
theorem C68_refuted_view : tells "a$" (.view [] [97] [0]) = some [some "a"] ∧ tells "a$" (.view [] [97] [10, 98]) = some [some "a\n"] := by decide +kernel

end ERegex.Props

import Verif.Proofs.Print
import Verif.Proofs.Printable
import Verif.Props.Leftmost
/-!
# C44 : get_expression

`exprOf t` is what `get_expression()` returns for the compiled tree `t`.  `reads t` (Proofs/Print.lean) is a decidable condition:
it tries to read the printed text as a well-formed pattern of Spec/Syntax.lean.
-/
set_option autoImplicit false
namespace ERegex.Props
open ERegex ERegex.Spec
open ERegex.Conformance (lit m)

/-- **C44 (partial).** For every pattern whose compiled tree can be read back: the expression returned by `get_expression()`
compiles, and it stands for exactly the same strings as the original pattern, at every place of every query.  Missing: the other
patterns (escaped operators, classes with several items next to something else, quantified sequences, zero bounds), for which it
is false (refutations below). -/
theorem C44_round_trip_partial (p : List Int) (b t : Node) (hb : build p = some b) (h : compile p = some t)
    (hr : (reads t).isSome = true) :
    ∃ b' t', build (exprOf t) = some b' ∧ compile (exprOf t) = some t' ∧
      (∀ q i j, Den q (toRx b') i j ↔ Den q (toRx b) i j) ∧ ∀ q i j, Den q (toRx t') i j ↔ Den q (toRx b) i j := by
  obtain ⟨as, ha⟩ := Option.isSome_iff_exists.1 hr
  obtain ⟨h1, h2, h3⟩ := reads_ok t as ha
  obtain ⟨b', hb', hs⟩ := build_syntax as h1
  rw [h2] at hb'
  obtain ⟨t', ht'⟩ := optimize_some b'
  have hc : compile (exprOf t) = some t' := by simp [compile, hb', ht']
  have e : ∀ q i j, Den q (toRx b') i j ↔ Den q (toRx b) i j := fun q i j =>
    ((hs q i j).trans (h3 q i j)).trans (starts_iff hb h q i j)
  exact ⟨b', t', hb', hc, e, fun q i j => (starts_iff hb' hc q i j).trans (e q i j)⟩

/-- **C44 (partial).** The same with a condition on the pattern as written (`Alts.prints`, Spec/Printable.lean): `get_expression()` returns the spelling of a
well-formed pattern that stands for the same strings, at every place of every query, and so does the regex compiled from it.  Missing: escaped operators, classes
with several items and alternatives without number next to something else, quantified sequences, and bounds with a zero, for which it is false (refutations below). -/
theorem C44_written_partial (as : Alts) (hk : as.ok = true) (h : as.prints = true) :
    ∃ t e t', compile as.spell = some t ∧ exprOf t = Alts.spell e ∧ e.ok = true ∧ compile (exprOf t) = some t' ∧
      (∀ q i j, Den q e.sem i j ↔ Den q as.sem i j) ∧ ∀ q i j, Den q (toRx t') i j ↔ Den q as.sem i j := by
  obtain ⟨t, ht, e, he⟩ := prints_reads hk h
  obtain ⟨h1, h2, h3⟩ := reads_ok t e he
  obtain ⟨b, hb, hs⟩ := build_syntax as hk
  obtain ⟨b', hb', hs'⟩ := build_syntax e h1
  obtain ⟨t', ht'⟩ := optimize_some b'
  have hc : compile (exprOf t) = some t' := by rw [← h2]; simp [compile, hb', ht']
  have same : ∀ q i j, Den q e.sem i j ↔ Den q as.sem i j := fun q i j => ((h3 q i j).trans (starts_iff hb ht q i j)).trans (hs q i j)
  exact ⟨t, e, t', ht, h2.symm, h1, hc, same, fun q i j => ((starts_iff (h2 ▸ hb') hc q i j).trans (hs' q i j)).trans (same q i j)⟩

/-- A key, and a value with two forms. -/
def printPattern : Alts :=
  .last true (.cons (.group true (.last false (.cons (.esc 119) (.plus .greedy) (.nil false)))) .once (.cons (.chr 61) .once
    (.cons (.group true (.more false (.cons (.chr 120) .once (.cons (.esc 100) (.between [50] [51] .greedy) (.nil false)))
      (.last false (.cons (.cls true [.chr 59] false) (.star .greedy) (.nil false))))) .once (.nil true))))
example : printPattern.ok = true ∧ printPattern.prints = true ∧ printPattern.spell = str "^(\\w+)=(x\\d{2,3}|[^;]*)$" ∧
    ((compile printPattern.spell).map exprOf) = some (str "^(\\w++)=((?:x[0-9]{2,3}+)|(?:[^;]*+))$") := by decide +kernel
-- a class alone, and what the condition excludes
example : (Alts.last false (.cons (.cls false [.chr 97, .rng 48 57] false) .once (.nil false))).prints = true ∧
    (Alts.last false (.cons (.chr 120) .once (.cons (.cls false [.chr 97, .chr 98] false) .once (.nil false)))).prints = false ∧
    (Alts.last false (.cons (.esc 46) .once (.nil false))).prints = false ∧
    (Alts.last false (.cons (.chr 97) (.between [48] [53] .greedy) (.nil false))).prints = false := by decide +kernel

/-- The condition for a pattern. -/
def readsBack (p : String) : Bool := (compile (str p)).any (fun t => (reads t).isSome)

example : ["\\w+", "a(?:a(b))cd", "(\\d+)-(\\d+)-(\\d+)", "\"(.*)\"", "a|bc|cd|d", "(a{1,}?)a", "ab?c", "\\d{4}", "(\\w+)=(\\d+)",
    "a*?b", "x\\d{2}y", "cat|dog", "<(\\w+)>", "a.*b", "\\w++@", "a(b(c)d)e", ".*", "a$", "^\\w+$", "(a|b)+c", "a{2,3}?b", "[abc]",
    "[^a]", "[a-z]+x"].all readsBack = true := by decide +kernel
example : ((compile (str "(a|b)+c\\d{2,}")).map exprOf) = some (str "((?:a)|(?:b))++c[0-9]{2,}+") ∧ readsBack "(a|b)+c\\d{2,}" = true := by
  decide +kernel

-- the example of the README
example : ((compile (str "\\d+\\s+123")).map exprOf) = some (str "[0-9]++\\s++123") ∧ readsBack "\\d+\\s+123" = true := by decide +kernel

/-- `get_expression()` of `p` is `e`, which does not compile. -/
def PrintsBroken (p e : String) : Prop := ∃ t, compile (str p) = some t ∧ exprOf t = str e ∧ compile (str e) = none

theorem printsBroken_of {p e : String} (h : ((compile (str p)).any (fun t => decide (exprOf t = str e)) && (compile (str e)).isNone) = true) :
    PrintsBroken p e := by
  simp only [Bool.and_eq_true, Option.isNone_iff_eq_none, Option.any_eq_true_iff_get] at h
  obtain ⟨⟨h1, h2⟩, h3⟩ := h
  obtain ⟨t, ht⟩ := Option.isSome_iff_exists.1 h1
  simp only [ht, Option.get_some, decide_eq_true_eq] at h2
  exact ⟨t, ht, h2, h3⟩

/-- `get_expression()` of `p` is `e`, and the two stand for different texts: one of them matches all of `s`, the other does not. -/
def PrintsOther (p e s : String) : Prop := ∃ b t b', build (str p) = some b ∧ compile (str p) = some t ∧ exprOf t = str e ∧
  build (str e) = some b' ∧ ¬ (Den (str s) (toRx b) 0 (str s).length ↔ Den (str s) (toRx b') 0 (str s).length)

/-- Checking `PrintsOther`. -/
def printsOther (p e s : String) : Bool :=
  match build (str p), compile (str p), build (str e) with
  | some b, some t, some b' => decide (exprOf t = str e) &&
      (decide ((str s).length ∈ ends (str s) (toRx b) 0) != decide ((str s).length ∈ ends (str s) (toRx b') 0))
  | _, _, _ => false

theorem printsOther_of {p e s : String} (h : printsOther p e s = true) : PrintsOther p e s := by
  simp only [printsOther] at h
  split at h
  · rename_i b t b' hb ht hb'
    simp only [Bool.and_eq_true, decide_eq_true_eq, bne_iff_ne, ne_eq, decide_eq_decide] at h
    refine ⟨b, t, b', hb, ht, h.1, hb', ?_⟩
    rw [den_iff_ends (Nat.zero_le _), den_iff_ends (Nat.zero_le _)]
    exact h.2
  · simp at h

/-- **C44, refuted.** A zero bound is printed as nothing, and the result does not compile. -/
theorem C44_zero_refuted : PrintsBroken "a{0,5}" "a{,5}+" ∧ PrintsBroken "a{0}b" "a{}b" :=
  ⟨printsBroken_of (by decide +kernel), printsBroken_of (by decide +kernel)⟩
/-- **C44, refuted.** Escapes are lost: `\.` is printed as `.`, which matches any character. -/
theorem C44_escape_refuted : PrintsOther "\\." "." "a" := printsOther_of (by decide +kernel)
/-- **C44, refuted.** A class or a non-capturing group of alternatives is printed without brackets. -/
theorem C44_class_refuted : PrintsOther "x[ab]" "x(?:a)|(?:b)" "b" ∧ PrintsOther "[ab]c" "(?:a)|(?:b)c" "a" ∧
    PrintsOther "x(?:a|b)" "x(?:a)|(?:b)" "b" :=
  ⟨printsOther_of (by decide +kernel), printsOther_of (by decide +kernel), printsOther_of (by decide +kernel)⟩
/-- **C44, refuted.** A quantified sequence is printed without brackets. -/
theorem C44_sequence_refuted : PrintsOther "(?:ab)+" "ab++" "abab" := printsOther_of (by decide +kernel)
/-- **C44, refuted.** A negated class of several items is printed with its alternatives inside the brackets. -/
theorem C44_negated_refuted : PrintsOther "[^ab]" "[^(?:a)|(?:b)]" "?" := printsOther_of (by decide +kernel)

end ERegex.Props

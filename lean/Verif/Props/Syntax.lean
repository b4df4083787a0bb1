import Verif.Proofs.Syntax
import Verif.Props.Sound
/-!
# C47 : a pattern means what it says

`Spec/Syntax.lean` defines the abstract syntax of patterns (`Alts`), how it is spelled (`spell`), which textbook regular
expression it stands for (`sem`) and which spellings are well formed (`ok`), without reference to the library.
`build p` is the tree that the library's parser produces, `compile p` the optimized tree that is run.
-/
set_option autoImplicit false
namespace ERegex.Props
open ERegex ERegex.Spec
open ERegex.Conformance (lit m)

/-- **C47.** Every well-formed pattern parses, and the tree that is built denotes exactly the strings that the pattern as
written stands for. -/
theorem C47_parse (as : Alts) (h : as.ok = true) :
    ∃ b, build as.spell = some b ∧ ∀ q i j, Den q (toRx b) i j ↔ Den q as.sem i j := build_syntax as h

/-- **C47.** The same of the tree after the optimizer. -/
theorem C47_compile (as : Alts) (h : as.ok = true) :
    ∃ t, compile as.spell = some t ∧ ∀ q i j, Den q (toRx t) i j ↔ Den q as.sem i j := by
  obtain ⟨b, hb, hs⟩ := build_syntax as h
  obtain ⟨t, ht⟩ := optimize_some b
  obtain ⟨k, rfl⟩ := optimize_rounds ht
  exact ⟨_, by simp [compile, hb, ht], (rounds_same k b).trans hs⟩

/-- **C47.** End to end: whatever is reported as a match of a well-formed pattern (whose compiled tree meets the two conditions
of C20) is text that the pattern as written stands for, where it stands in the query. -/
theorem C47_accepted_partial (as : Alts) (hok : as.ok = true) (t : Node) (h : compile as.spell = some t)
    (nul : Bool) (hs : safe nul t = true) (hd : snd false true t = true) (cx : Ctx)
    (hnul : nul = true → cx.post.head? = some 0) (st : St) (hr : Reach cx t st) (ha : st.accepted = true) :
    ∃ i j : Nat, toView st = some ((i : Int), (j : Int)) ∧ Den cx.query as.sem i j := by
  obtain ⟨b, hb, hsame⟩ := build_syntax as hok
  obtain ⟨i, j, h1, h2⟩ := C20_accepted_in_language_partial _ b t hb h nul hs hd cx hnul st hr ha
  exact ⟨i, j, h1, (hsame _ _ _).1 h2⟩

/-- Letter. -/
private def a (c : Char) : Atom := .chr c.toNat

/-- `^(\w+|[^a-f\-]{2,3}?).\x41$|b*+c` -/
def samplePattern : Alts :=
  .more true (.cons (.group true (.more false (.cons (.esc 119) (.plus .greedy) (.nil false))
      (.last false (.cons (.cls true [.rng 97 102, .esc 45] false) (.between [50] [51] .lazy) (.nil false))))) .once
    (.cons .dot .once (.cons (.hex 52 49) .once (.nil true))))
  (.last false (.cons (a 'b') (.star .possessive) (.cons (a 'c') .once (.nil false))))

example : samplePattern.ok = true ∧ samplePattern.spell = str "^(\\w+|[^a-f\\-]{2,3}?).\\x41$|b*+c" := by decide
example : sound true "^(\\w+|[^a-f\\-]{2,3}?).\\x41$|b*+c" = true := by decide +kernel

/-- **C47, outside the syntax.** Empty alternatives and empty groups do not compile. -/
theorem C47_empty_refuted : build (str "a|") = none ∧ build (str "|a") = none ∧ build (str "()") = none ∧ build [] = none := by
  decide +kernel

/-- **C47, outside the syntax.** `{,n}`, an empty class and classes with two-character brace contents: the first two do not
compile, and `[{12}]` does not match `1`. -/
theorem C47_brace_refuted : build (str "a{,3}") = none ∧ build (str "[]") = none ∧
    ∃ b, build (str "[{12}]") = some b ∧ ¬ Den (str "1") (toRx b) 0 1 := by
  refine ⟨by decide +kernel, by decide +kernel, ?_⟩
  have : (build (str "[{12}]")).isSome = true := by decide +kernel
  obtain ⟨b, hb⟩ := Option.isSome_iff_exists.1 this
  refine ⟨b, hb, ?_⟩
  intro hd
  have h1 : (build (str "[{12}]")).all (fun b => !decide (1 ∈ ends (str "1") (toRx b) 0)) = true := by decide +kernel
  rw [hb] at h1
  simp only [Option.all_some, Bool.not_eq_true', decide_eq_false_iff_not] at h1
  exact h1 ((den_iff_ends (by decide)).1 hd)

/-- **C47, outside the syntax.** An anchor that is not at the edge of its alternative is an ordinary character. -/
theorem C47_inner_anchor_refuted : ∃ b, build (str "a$b") = some b ∧ Den (str "a$b") (toRx b) 0 3 := by
  have : (build (str "a$b")).any (fun b => decide (3 ∈ ends (str "a$b") (toRx b) 0)) = true := by decide +kernel
  cases hb : build (str "a$b") with
  | none => rw [hb] at this; simp at this
  | some b =>
    rw [hb] at this
    exact ⟨b, rfl, (den_iff_ends (by decide)).2 (by simpa using this)⟩

end ERegex.Props

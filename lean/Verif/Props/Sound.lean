import Verif.Proofs.SoundSearch
import Verif.Proofs.Decide
import Verif.Props.Search
/-!
# C20, C45 : what is accepted and what is captured belongs to the language

`build p` is the tree of the pattern as written, `toRx` reads it as a textbook regular expression and `Den q r i j` is the
textbook relation "`r` matches `q[i..j)`" (Spec/Lang.lean).  `compile p` is the optimized tree that is run.
`safe` (Proofs/Safety.lean) and `snd` (Proofs/Sound.lean) are decidable conditions on the compiled tree.
-/
set_option autoImplicit false
namespace ERegex.Props
open ERegex ERegex.Spec
open ERegex.Conformance (lit m)

/-! ## C20 -/

/-- The conditions under which the engine is proved sound; `nul` tells that the query is followed by a NUL byte. -/
def sound (nul : Bool) (p : String) : Bool :=
  match compile (str p) with
  | some t => safe nul t && snd false true t
  | none => false

theorem compile_correct {p : List Int} {b t : Node} (hb : build p = some b) (h : compile p = some t) {nul : Bool}
    (hs : safe nul t = true) (hd : snd false true t = true) {cx : Ctx} (hnul : nul = true → cx.post.head? = some 0)
    {st : St} (hr : Reach cx t st) :
    (∃ k, t = rounds k b) ∧ Correct cx t st := by
  refine ⟨?_, soundTree_safe (soundTree hnul hs hd (C10_slots_in_array p t h)) (compile_safeTree h hs hnul) hr⟩
  simp only [compile, hb] at h
  exact optimize_rounds h

/-- **C20 (partial).** For every pattern whose compiled tree meets the two conditions, every query and every result obtained
by matching it and calling `next()` any number of times: if the result is accepted, the text it reports is in the language of
the pattern as written, at the place where it was found.  Missing: the other patterns; the claim is false for many of them
(refutations below). -/
theorem C20_accepted_in_language_partial (p : List Int) (b t : Node) (hb : build p = some b) (h : compile p = some t)
    (nul : Bool) (hs : safe nul t = true) (hd : snd false true t = true) (cx : Ctx)
    (hnul : nul = true → cx.post.head? = some 0) (st : St) (hr : Reach cx t st) (ha : st.accepted = true) :
    ∃ i j : Nat, toView st = some ((i : Int), (j : Int)) ∧ Den cx.query (toRx b) i j := by
  obtain ⟨⟨k, rfl⟩, hc⟩ := compile_correct hb h hs hd hnul hr
  obtain ⟨h1, h2, h3⟩ := hc.text ha
  refine ⟨st.start.toNat, st.pos.toNat, ?_, (rounds_same k b _ _ _).1 h3⟩
  simp only [toView, ha, if_true, Option.some.injEq, Prod.mk.injEq]
  omega

-- patterns of the README and of the tests that satisfy the hypotheses
example : ["\\w+", "a(?:a(b))cd", "[\\w.\\-]+@[\\w\\-]+\\.[\\w.]+", "(\\d+)-(\\d+)-(\\d+)", "a[^a-fh]+", "\"(.*)\"",
    "a|bc|cd|d", "^a", "(a{1,}?)a", "\\x41", "ab?c", "(a|b)*c", "a{2,3}b"].map (sound false) =
    [true, true, true, true, true, true, true, true, true, true, true, true, true] := by decide +kernel
example : ["b*a*?b*", "(?:ab)+c*d*", "(a|b)+?c*", "x(?:\\s*a)*b*|c"].map (sound false) = [true, true, true, true] := by decide +kernel
example : ["a$", "\\w+$", "\\x{4142}c", "^\\w+\\d*$"].map (sound true) = [true, true, true, true] := by decide +kernel

/-- The pattern `p` compiles, its first match in `s` is accepted with text `x`, and the language of the pattern does not
contain that text at that place. -/
def AcceptsOutside (p s x : String) : Prop := ∃ b t st, build (str p) = some b ∧ compile (str p) = some t ∧
  construct (lit s) t 100 = .ok st ∧ st.accepted = true ∧ (m p s).map (·.head?) = some (some (some x)) ∧
  ¬ Den (str s) (toRx b) st.start.toNat st.pos.toNat

/-- Checking `AcceptsOutside`. -/
def acceptsOutside (p s x : String) : Bool :=
  match build (str p), compile (str p) with
  | some b, some t =>
    match construct (lit s) t 100 with
    | .ok st => st.accepted && decide ((m p s).map (·.head?) = some (some (some x))) && decide (st.start.toNat ≤ (str s).length) &&
        !decide (st.pos.toNat ∈ ends (str s) (toRx b) st.start.toNat)
    | _ => false
  | _, _ => false

theorem acceptsOutside_of {p s x : String} (h : acceptsOutside p s x = true) : AcceptsOutside p s x := by
  unfold acceptsOutside at h
  split at h
  · rename_i b t h1 h2
    split at h
    · rename_i st h3
      simp only [Bool.and_eq_true, decide_eq_true_eq, Bool.not_eq_true', decide_eq_false_iff_not] at h
      obtain ⟨⟨⟨h4, h5⟩, h6⟩, h7⟩ := h
      exact ⟨b, t, st, h1, h2, h3, h4, h5, by rwa [den_iff_ends h6]⟩
    · simp at h
  · simp at h

/-- **C20, refuted.** After the failed optional the last `a` of the pattern matches the character that the first one has
already consumed. -/
theorem C20_refuted_optional : AcceptsOutside "aa?a" "ab" "a" := acceptsOutside_of (by decide +kernel)

/-- **C20, refuted.** The position is not restored before the second alternative. -/
theorem C20_refuted_alternatives : AcceptsOutside "\\d+a|b" "12b" "12b" ∧ AcceptsOutside "a{2}b|c" "aac" "aac" :=
  ⟨acceptsOutside_of (by decide +kernel), acceptsOutside_of (by decide +kernel)⟩

/-- **C20, refuted.** Giving back a repetition that consists of several characters, or a negated class. -/
theorem C20_refuted_giving_back : AcceptsOutside "(?:a{2})*a" "aaa" "aa" ∧ AcceptsOutside "[^a]*b" "xxab" "xxab" :=
  ⟨acceptsOutside_of (by decide +kernel), acceptsOutside_of (by decide +kernel)⟩

/-- **C20, refuted.** A class with `\s` before another item, and a lazy repetition before an exact one. -/
theorem C20_refuted_class_lazy : AcceptsOutside "[\\sa]" "xa" "xa" ∧ AcceptsOutside "x*?a{2}y" "axaay" "axaay" :=
  ⟨acceptsOutside_of (by decide +kernel), acceptsOutside_of (by decide +kernel)⟩

/-- **C20, refuted.** A repetition of groups: the last round is given up half-way, and what it has taken stays taken; and between two newlines an optional
character that fails steps back. -/
theorem C20_refuted_half_round : AcceptsOutside "^(?:(a)(b))+$" "aba" "aba" ∧ AcceptsOutside "\n.?\n" "\n" "\n" :=
  ⟨acceptsOutside_of (by decide +kernel), acceptsOutside_of (by decide +kernel)⟩

/-! ## C45 -/

/-- **C45 (partial).** Under the same conditions, and whether or not the result is accepted: every capture `result[k + 1]` that
is not empty-by-default is a piece of the query that belongs to the language of a capturing group, as written, whose slot is
`k`.  Missing: the other patterns. -/
theorem C45_captures_in_group_language_partial (p : List Int) (b t : Node) (hb : build p = some b) (h : compile p = some t)
    (nul : Bool) (hs : safe nul t = true) (hd : snd false true t = true) (cx : Ctx)
    (hnul : nul = true → cx.post.head? = some 0) (st : St) (hr : Reach cx t st) (k : Nat) (x y : Int)
    (hg : getGroup st (k + 1) = some (some (x, y))) :
    ∃ (i j : Nat) (content : Node), x = i ∧ y = j ∧ (k, content) ∈ capsOf b ∧ Den cx.query (toRx content) i j := by
  obtain ⟨⟨n, rfl⟩, hc⟩ := compile_correct hb h hs hd hnul hr
  have hg' : st.groups[k]? = some (some (x, y)) := by simpa [getGroup] using hg
  obtain ⟨c, h1, h2, h3, h4⟩ := hc.caps k x y hg'
  obtain ⟨⟨k', c'⟩, h5, h6, h7⟩ := caps_rounds n b _ h1
  simp only at h6 h7
  subst h6
  exact ⟨x.toNat, y.toNat, c', by omega, by omega, h5, (h7 _ _ _).1 h4⟩

/-- The groups of the tree of a pattern, as regular expressions: in `(\d+)-(\w+)` slot 0 is `\d+` and slot 1 is `\w+`. -/
example : ∃ b, build (str "(\\d+)-(\\w+)") = some b ∧ (capsOf b).map (·.1) = [0, 1] ∧ sound false "(\\d+)-(\\w+)" = true ∧
    m "(\\d+)-(\\w+)" "x12-ab!" = some [some "12-ab", some "12", some "ab"] := ⟨_, rfl, by decide +kernel⟩

/-- **C45, refuted.** A group whose content is an alternation with an exact repetition captures text outside its language. -/
theorem C45_refuted : ∃ b c, build (str "(a{2}b|c)") = some b ∧ capsOf b = [(0, c)] ∧
    m "(a{2}b|c)" "aac" = some [some "aac", some "aac"] ∧ ¬ Den (str "aac") (toRx c) 0 3 := by
  refine ⟨_, _, rfl, rfl, by decide +kernel, ?_⟩
  rw [den_iff_ends (Nat.zero_le _)]
  decide +kernel

end ERegex.Props

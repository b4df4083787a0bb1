import Verif.Props.Arguments
import Verif.Props.Iterate
import Verif.Props.Sound
import Verif.Props.Leftmost
import Verif.Props.Capture
/-!
# C20, C30, C33, C49, C68 : decimal numbers up to the end of a line, quoted texts, names and values

`\d+(\.\d+)?$` is how one asks for a number at the end of a line.  The library computes 2 as the smallest and as the greatest length of `(\.\d+)` (C46), takes it for a part of
fixed width, and goes back two characters, also over what the other parts have matched, when `$` fails: where there is a newline the `$` matches there.
-/
set_option autoImplicit false
namespace ERegex.Props
open ERegex ERegex.Spec
open ERegex.Conformance (lit m)

/-- The verdict of `match` and what lies between the begin and the end of the result. -/
private def verdict (p : String) (x : Arg) : Option (Bool × Int × Int) :=
  match compile (str p) with
  | none => none
  | some t => match construct x.ctx t (x.ctx.query.length + 1) with
    | .ok st => some (st.accepted, st.start, st.pos)
    | _ => none

/-- **C20, refuted.** There is no number at the end of a line in `a⏎5x`; the empty text in front of the `5` is reported as one. -/
theorem C20_refuted_decimal : AcceptsOutside "\\d+(\\.\\d+)?$" "a\n5x" "" ∧ AcceptsOutside "\\d+(?:\\.\\d+)?$" "a\n5x" "" :=
  ⟨acceptsOutside_of (by decide +kernel), acceptsOutside_of (by decide +kernel)⟩

/-- **C68, refuted.** A number and nothing else, `^\d+(\.\d+)?$`: the text `5x` is accepted (with an empty match) if it is a view into a buffer in which it follows a newline, and
rejected if it follows another character. -/
theorem C68_refuted_decimal : verdict "^\\d+(\\.\\d+)?$" (.view [49, 10] [53, 120] [0]) = some (true, 0, 0) ∧
    verdict "^\\d+(\\.\\d+)?$" (.view [49, 44] [53, 120] [0]) = some (false, 2, 2) := by decide +kernel

/-- **C33, refuted.** The pattern takes at least one character; and yet a range-for over its matches in `1⏎5x` never ends: behind the first match, `1⏎`, it comes to the empty text
in front of the `5` again and again. -/
theorem C33_refuted_decimal : ∃ t, compile (str "\\d+(\\.\\d+)?$") = some t ∧ minSize t = 1 ∧
    ∀ r n, rangeFor (lit "1\n5x") t 5 (n + 1) r = some (some (0, 2) :: List.replicate n (some (2, 2)), false) := by
  have ht : ∃ t, compile (str "\\d+(\\.\\d+)?$") = some t ∧ minSize t = 1 ∧ construct (lit "1\n5x") t 5 = .ok ⟨0, 2, [none], true⟩ ∧
      next (lit "1\n5x") t 5 ⟨0, 2, [none], true⟩ = .ok ⟨2, 2, [none], true⟩ ∧
      next (lit "1\n5x") t 5 ⟨2, 2, [none], true⟩ = .ok ⟨2, 2, [none], true⟩ := by
    cases h : compile (str "\\d+(\\.\\d+)?$") with
    | none => exact absurd h (by decide +kernel)
    | some t =>
      refine ⟨t, rfl, ?_⟩
      have : (compile (str "\\d+(\\.\\d+)?$")).all (fun t => decide (minSize t = 1 ∧ construct (lit "1\n5x") t 5 = .ok ⟨0, 2, [none], true⟩ ∧
        next (lit "1\n5x") t 5 ⟨0, 2, [none], true⟩ = .ok ⟨2, 2, [none], true⟩ ∧
        next (lit "1\n5x") t 5 ⟨2, 2, [none], true⟩ = .ok ⟨2, 2, [none], true⟩)) = true := by decide +kernel
      rw [h] at this
      simpa using this
  obtain ⟨t, h1, h2, hc, h3, h4⟩ := ht
  refine ⟨t, h1, h2, fun r n => ?_⟩
  have key : ∀ n, visit (lit "1\n5x") t 5 (endR r) n ⟨2, 2, [none], true⟩ = some (List.replicate n (some (2, 2)), false) := by
    intro n
    induction n with
    | zero => simp [visit, neqR_end]
    | succ n ih => simp [visit, neqR_end, h4, ih, toView, List.replicate_succ]
  simp [rangeFor, beginR, hc, visit, neqR_end, h3, key, toView]

/-- **C30, refuted.** Quoted texts in which a backslash protects the next character, `"([^"\\]|\\.)*"`: the negated class moves on over the backslash although it fails there, and the alternative
for protected characters is tried behind it.  So `"b\"c"` is not found, but the part of it from the protected quote on. -/
theorem C30_refuted_quoted : MissesLeftmost "\"([^\"\\\\]|\\\\.)*\"" "\"b\\\"c\"" 0 ∧
    m "\"([^\"\\\\]|\\\\.)*\"" "\"b\\\"c\"" = some [some "\"c\"", some "c"] :=
  ⟨missesLeftmost_of (by decide +kernel), by decide +kernel⟩

/-- `(\w+):\s*(.*)` -/
private def header : Alts := .last false (.cons (.group true (.last false (.cons (.esc 119) (.plus .greedy) (.nil false)))) .once (.cons (.chr 58) .once
  (.cons (.esc 115) (.star .greedy) (.cons (.group true (.last false (.cons .dot (.star .greedy) (.nil false)))) .once (.nil false)))))

/-- **C49, refuted.** Names and values, `(\w+):\s*(.*)`: of `a:  bc` the value is `bc`, and the library reports `c`.  (`\s*` stops behind the first character that is no space, since `\s` moves
on also when it fails.) -/
theorem C49_refuted_header : header.spell = str "(\\w+):\\s*(.*)" ∧ (shownWays header "a:  bc" 0).head? = some (6, [some (0, 1), some (4, 6)]) ∧
    m "(\\w+):\\s*(.*)" "a:  bc" = some [some "a:  bc", some "a", some "c"] := by decide +kernel

/-- **C20, refuted.** For the same reason a character behind spaces is passed over: `a\s*.` takes all of `a  bc`. -/
theorem C20_refuted_spaces : AcceptsOutside "a\\s*." "a  bc" "a  bc" := acceptsOutside_of (by decide +kernel)

/-- **C20, refuted.** Optional spaces, or any optional run of a negated class, in front of the end of the text let one more character pass, whatever it is: the texts that `^\d+\s*$`, `^\w+\s?$`,
`^\s*(\w+)\s*$` and `^\w+[^,]*$` describe do not include `12x`, `ab!`, `ab!` and `ab,`, and the library accepts all four as a whole. -/
theorem C20_refuted_trailing : AcceptsOutside "^\\d+\\s*$" "12x" "12x" ∧ AcceptsOutside "^\\w+\\s?$" "ab!" "ab!" ∧
    AcceptsOutside "^\\s*(\\w+)\\s*$" "ab!" "ab!" ∧ AcceptsOutside "^\\w+[^,]*$" "ab," "ab," :=
  ⟨acceptsOutside_of (by decide +kernel), acceptsOutside_of (by decide +kernel), acceptsOutside_of (by decide +kernel), acceptsOutside_of (by decide +kernel)⟩

/-- **C30, refuted.** A separator at the end of what is repeated: when the last repetition fails the library goes on where it failed, behind the word it has read, and so nothing is left for the `\w+` that
follows.  `(\w+,)*\w+` does not find the word `ab`, `\w+@(\w+\.)+\w+` not the mail address `me@b.org`, and `^(\w+\.)+\w+$` and `^(?:\w+,)*\w+$` reject `a.b` and `a,b`. -/
theorem C30_refuted_separator : MissesLeftmost "(\\w+,)*\\w+" "ab" 0 ∧ MissesLeftmost "(?:\\w+,)*\\w+" "ab" 0 ∧
    MissesLeftmost "\\w+@(\\w+\\.)+\\w+" "me@b.org" 0 ∧ MissesLeftmost "^(\\w+\\.)+\\w+$" "a.b" 0 ∧ MissesLeftmost "^(?:\\w+,)*\\w+$" "a,b" 0 :=
  ⟨missesLeftmost_of (by decide +kernel), missesLeftmost_of (by decide +kernel), missesLeftmost_of (by decide +kernel), missesLeftmost_of (by decide +kernel),
   missesLeftmost_of (by decide +kernel)⟩

/-- **C30, refuted.** Numbers with a sign, `-?\d+`: of `1--5` the second match is `5`, although `-5` begins before it: the sign of the failed attempt in front of it is not given back
(C13: `-?` has been made possessive), and the search goes on behind the next character. -/
theorem C30_refuted_sign : MissesLeftmost "-?\\d+" "a--5" 2 ∧ m "-?\\d+" "1--5" 1 = some [some "5"] := ⟨missesLeftmost_of (by decide +kernel), by decide +kernel⟩

end ERegex.Props

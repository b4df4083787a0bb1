import Verif.Proofs.WellFormed
import Verif.Props.Heuristics
/-!
# C63 : malformed patterns do not compile

`compile p = none` says that the C++ program that uses the pattern `p` does not compile.  What a well-formed pattern is, is in
`Verif/Spec/Malformed.lean`.
-/
set_option autoImplicit false
namespace ERegex.Props
open ERegex ERegex.Spec

theorem compile_build {p : List Int} {t : Node} (h : compile p = some t) : ∃ t', build p = some t' := by
  unfold compile at h
  cases hb : build p with
  | none => simp [hb] at h
  | some t' => exact ⟨t', rfl⟩

theorem build_compile {p : List Int} {t : Node} (h : build p = some t) : ∃ t', compile p = some t' := by
  obtain ⟨r, hr⟩ := optimize_some t
  exact ⟨r, by simp [compile, h, hr]⟩

theorem compile_none {p : List Int} (h : build p = none) : compile p = none := by simp [compile, h]

theorem none_of_build {p : List Int} (h : ∀ t, build p = some t → False) : compile p = none := by
  cases hb : build p with
  | none => exact compile_none hb
  | some t => exact absurd (h t hb) id

/-- **C63.** A pattern that compiles has a well-formed outline: all groups closed, no empty alternative or group, nothing that begins
with a quantifier. -/
theorem C63_outline (p : List Int) (t : Node) (h : compile p = some t) (s : List Int) (hs : outline .outside p = some s) : Pattern true s := by
  obtain ⟨t', h⟩ := compile_build h
  exact build_pattern h hs

/-- **C63.** A pattern whose escapes, classes and bounds are in order compiles exactly when its outline is well-formed. -/
theorem C63_exact (p s : List Int) (h : Sketch p s) : (∃ t, compile p = some t) ↔ Pattern true s := by
  obtain ⟨ts, ht, hd⟩ := sketch_tokens h
  constructor
  · rintro ⟨t, ht'⟩
    obtain ⟨t', hb⟩ := compile_build ht'
    exact build_outline hb ht (drawn_out hd)
  · intro hp
    obtain ⟨t, hb⟩ := drawn_build ht hd hp
    exact build_compile hb

/-- **C63.** A group that is not closed: more `(` than `)`. -/
theorem C63_unclosed_group (p s : List Int) (hs : outline .outside p = some s) (h : s.count 41 < s.count 40) : compile p = none := by
  refine none_of_build fun t hb => ?_
  have := pattern_counts (build_pattern hb hs)
  omega

theorem none_of_reads {p s : List Int} (hs : outline .outside p = some s) (h : Spot.begins.readAll s ≠ some .along) : compile p = none :=
  none_of_build fun _ hb => h (pattern_reads (build_pattern hb hs)).1

theorem quantifier_cases {q : Int} (hq : quantifier q) : q = 42 ∨ q = 43 ∨ q = 63 := hq

theorem read_bar (x : Spot) (v : List Int) (h : Spot.begins.readAll v ≠ some .along) : x.readAll (124 :: v) ≠ some .along := by
  cases x <;> simp [Spot.readAll, Spot.read]
  exact h

theorem read_paren (x : Spot) (v : List Int) (h : Spot.opened.readAll v ≠ some .along) : x.readAll (40 :: v) ≠ some .along := by
  cases x <;> simp [Spot.readAll, Spot.read] <;> exact h

theorem read_after (u v : List Int) (h : ∀ x : Spot, x.readAll v ≠ some .along) : Spot.begins.readAll (u ++ v) ≠ some .along := by
  rw [readAll_append]
  cases Spot.begins.readAll u with
  | none => simp
  | some x => exact h x

/-- **C63.** Nothing to repeat: a quantifier at the beginning of the pattern, after `|` or after `(?:` does not compile, nor does `*` or `+`
(or a bound) after `(`. -/
theorem C63_nothing_to_repeat (p u v : List Int) (q : Int) (hq : quantifier q)
    (hs : outline .outside p = some (q :: v) ∨ outline .outside p = some (u ++ 124 :: q :: v) ∨
      outline .outside p = some (u ++ 40 :: 63 :: 58 :: q :: v) ∨ (q ≠ 63 ∧ outline .outside p = some (u ++ 40 :: q :: v))) :
    compile p = none := by
  rcases hs with hs | hs | hs | ⟨hn, hs⟩
  · refine none_of_reads hs ?_
    rcases hq with rfl | rfl | rfl <;> simp [Spot.readAll, Spot.read]
  · refine none_of_reads hs (read_after _ _ fun x => read_bar x _ ?_)
    rcases hq with rfl | rfl | rfl <;> simp [Spot.readAll, Spot.read]
  · refine none_of_reads hs (read_after _ _ fun x => read_paren x _ ?_)
    rcases hq with rfl | rfl | rfl <;> simp [Spot.readAll, Spot.read]
  · refine none_of_reads hs (read_after _ _ fun x => read_paren x _ ?_)
    rcases hq with rfl | rfl | rfl
    · simp [Spot.readAll, Spot.read]
    · simp [Spot.readAll, Spot.read]
    · exact absurd rfl hn

/-- **C63.** After `(?` nothing but `:` is allowed: no lookaround, no named groups, no options. -/
theorem C63_question_group (p u v : List Int) (c : Int) (hc : c ≠ 58)
    (hs : outline .outside p = some (u ++ 40 :: 63 :: c :: v)) : compile p = none := by
  refine none_of_reads hs (read_after _ _ fun x => read_paren x _ ?_)
  simp [Spot.readAll, Spot.read, hc]

/-- **C63.** No empty alternative: the empty pattern, a pattern that begins or ends with `|`, and `||`, `(|`, `()`, `(?:|`, `(?:)` anywhere. -/
theorem C63_empty_alternative (p u v : List Int)
    (hs : outline .outside p = some [] ∨ outline .outside p = some (124 :: v) ∨ outline .outside p = some (u ++ [124]) ∨
      outline .outside p = some (u ++ 124 :: 124 :: v) ∨ outline .outside p = some (u ++ 40 :: 124 :: v) ∨
      outline .outside p = some (u ++ 40 :: 41 :: v) ∨ outline .outside p = some (u ++ 40 :: 63 :: 58 :: 124 :: v) ∨
      outline .outside p = some (u ++ 40 :: 63 :: 58 :: 41 :: v)) : compile p = none := by
  rcases hs with hs | hs | hs | hs | hs | hs | hs | hs
  · exact none_of_reads hs (by simp [Spot.readAll])
  · exact none_of_reads hs (by simp [Spot.readAll, Spot.read])
  · exact none_of_reads hs (read_after _ _ fun x => read_bar x _ (by simp [Spot.readAll]))
  · exact none_of_reads hs (read_after _ _ fun x => read_bar x _ (by simp [Spot.readAll, Spot.read]))
  · exact none_of_reads hs (read_after _ _ fun x => read_paren x _ (by simp [Spot.readAll, Spot.read]))
  · exact none_of_reads hs (read_after _ _ fun x => read_paren x _ (by simp [Spot.readAll, Spot.read]))
  · exact none_of_reads hs (read_after _ _ fun x => read_paren x _ (by simp [Spot.readAll, Spot.read]))
  · exact none_of_reads hs (read_after _ _ fun x => read_paren x _ (by simp [Spot.readAll, Spot.read]))

/-- **C63.** A class that is not closed: a `[` (before it no escape and no bound) with no `]` behind it. -/
theorem C63_unclosed_class (a b : List Int) (h1 : 92 ∉ a) (h2 : 123 ∉ a) (h3 : 93 ∉ b) : compile (a ++ 91 :: b) = none :=
  none_of_build fun _ hb => h3 (build_square hb rfl h1 h2)

/-- **C63.** A range in the wrong order: `[…x-y` with `y ≤ x`, first after characters that stand for themselves. -/
theorem C63_reversed_range (a w b : List Int) (x y : Int) (h1 : 92 ∉ a) (h2 : 123 ∉ a) (h3 : 91 ∉ a) (hw : ∀ c ∈ w, ordinary c ∧ c ≠ 45)
    (hx : ordinary x) (hx1 : x ≠ 45) (hx2 : x ≠ 94) (hy : ordinary y) (h : y ≤ x) : compile (a ++ 91 :: (w ++ x :: 45 :: y :: b)) = none :=
  compile_none (build_range rfl h1 h2 h3 hw hx hx1 hx2 hy (by unfold rangeOk; simp; omega))

/-- **C63.** `\D`, `\N`, `\S`, `\W` are rejected wherever the first escape of a pattern is one of them, outside classes and bounds. -/
theorem C63_complement_escape (a b : List Int) (c : Int) (h1 : 92 ∉ a) (h2 : 123 ∉ a) (h3 : 91 ∉ a) (hc : c = 68 ∨ c = 78 ∨ c = 83 ∨ c = 87) :
    compile (a ++ 92 :: c :: b) = none :=
  compile_none (build_escape rfl h1 h2 h3 (by rcases hc with rfl | rfl | rfl | rfl <;> decide))

/-! ## instances -/

example : outline .outside (str "a(b|[c-e]{2,3}\\)") = some (str "a(b|a*a") ∧ (str "a(b|a*a").count 41 < (str "a(b|a*a").count 40 ∧
    compile (str "a(b|[c-e]{2,3}\\)") = none := by decide +kernel
example : outline .outside (str "x(\\d|{3}y)") = some (str "x(a|" ++ 42 :: str "y)") ∧ compile (str "x(\\d|{3}y)") = none := by decide +kernel
example : outline .outside (str "(?=ab)") = some (str "(?=ab)") ∧ compile (str "(?=ab)") = none ∧ compile (str "(?<n>a)") = none := by decide +kernel
example : outline .outside (str "a|(b|)*|c") = some (str "a|(b|)*|c") ∧ compile (str "a|(b|)*|c") = none := by decide +kernel
example : compile (str "x[a-z") = none ∧ compile (str "x[ac-bd]") = none ∧ compile (str "ab\\Wc") = none := by decide +kernel

/-- `(ab|[^x-z\-]{2,}+)*?|\d` -/
def draft : Sketch (str "(ab|[^x-z\\-]{2,}+)*?|\\d") (str "(ab|a*+)*?|a") :=
  .char (by decide) (by decide) (by decide) <| .char (by decide) (by decide) (by decide) <| .char (by decide) (by decide) (by decide) <|
  .char (by decide) (by decide) (by decide) <|
  .negated (u := str "x-z\\-") (.range (by unfold ordinary; decide) (by unfold ordinary; decide) (by decide) (by decide)
    (.escape (by unfold simpleEscape; decide) (by intros; simp) .nil)) (by decide) <|
  .bound (d := 50) (u := str ",") (by unfold ordinary; decide) (by decide) <|
  .char (by decide) (by decide) (by decide) <| .char (by decide) (by decide) (by decide) <| .char (by decide) (by decide) (by decide) <|
  .char (by decide) (by decide) (by decide) <| .char (by decide) (by decide) (by decide) <| .escape (by unfold simpleEscape; decide) .nil

example : ∃ t, compile (str "(ab|[^x-z\\-]{2,}+)*?|\\d") = some t := (C63_exact _ _ draft).2 (.more
  (.mk (.group (a := str "ab|a*+") (.more (.mk (.char (by decide) (by decide) (by decide) (.char (by decide) (by decide) (by decide) .nil)) (by unfold quantifier; decide))
    (.one (.mk (.char (by decide) (by decide) (by decide) (.char (by decide) (by decide) (by decide) (.char (by decide) (by decide) (by decide) .nil)))
      (by unfold quantifier; decide)))) (.char (by decide) (by decide) (by decide) (.char (by decide) (by decide) (by decide) .nil))) (by unfold quantifier; decide))
  (.one (.mk (.char (by decide) (by decide) (by decide) .nil) (by unfold quantifier; decide))))

/-! ## malformed patterns that compile -/

/-- **C63, refuted: brackets that close nothing.** `a)`, `a|)`, `a]`, `a}` and `}` compile. -/
theorem C63_refuted_closers : (compile (str "a)")).isSome ∧ (compile (str "a|)")).isSome ∧ (compile (str "a]")).isSome ∧ (compile (str "a}")).isSome ∧
    (compile (str "}")).isSome := by decide +kernel
/-- **C63, refuted: repeated quantifiers.** `a**`, `a{2}{3}`, `a???` and `^*` compile. -/
theorem C63_refuted_quantifiers : (compile (str "a**")).isSome ∧ (compile (str "a{2}{3}")).isSome ∧ (compile (str "a???")).isSome ∧
    (compile (str "^*")).isSome := by decide +kernel
/-- **C63, refuted: bounds.** A bound that is no number (`a{x}`), and one in the wrong order (`a{3,2}`), compile. -/
theorem C63_refuted_bounds : (compile (str "a{x}")).isSome ∧ (compile (str "a{3,2}")).isSome := by decide +kernel
/-- **C63, refuted: escapes.** A trailing backslash, an unknown escape and a hexadecimal escape without a digit compile. -/
theorem C63_refuted_escapes : (compile (str "\\")).isSome ∧ (compile (str "a\\")).isSome ∧ (compile (str "\\q")).isSome ∧
    (compile (str "\\xZ")).isSome := by decide +kernel
/-- **C63, refuted: well-formed patterns that do not compile.** The empty pattern, an empty alternative, a lookahead, a complement escape, the
class `[]]` and a class with an escape before `-`. -/
theorem C63_refuted_rejected : compile (str "") = none ∧ compile (str "a|") = none ∧ compile (str "(?=a)") = none ∧ compile (str "\\D") = none ∧
    compile (str "[]]") = none ∧ compile (str "[\\.-z]") = none := by decide +kernel

end ERegex.Props

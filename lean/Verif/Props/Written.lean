import Verif.Proofs.Written
import Verif.Props.Iterate
import Verif.Props.Sound
import Verif.Props.Texts
import Verif.Props.Search
/-!
# C18, C19, C20, C31, C32, C33, C36, C45, C47, C59 : conditions that can be read off the pattern as written

The pattern is an abstract syntax tree (Spec/Syntax.lean) and the conditions are about it alone (Spec/Tame.lean): where `$` is used, which
classes are negated and how short the text before a greedy `?` is; and, in Spec/Sure.lean, what stands behind a quantifier.
-/
set_option autoImplicit false
namespace ERegex.Props
open ERegex ERegex.Spec
open ERegex.Conformance (lit m)

/-- **C47.** The tree that the library builds of a well-formed pattern is the one that mirrors the pattern. -/
theorem C47_tree (as : Alts) (h : as.ok = true) : build as.spell = some as.tree := build_tree as h

/-- Well-formed patterns compile, and the compiled tree inherits the condition. -/
theorem compile_tame {as : Alts} (h : as.ok = true) : ∃ t, compile as.spell = some t ∧ ∀ d sp w, as.tame d sp w = true → tame d sp w t = true := by
  have hb := build_tree as h
  obtain ⟨t, ht⟩ := optimize_some as.tree
  obtain ⟨k, rfl⟩ := optimize_rounds ht
  exact ⟨_, by simp [compile, hb, ht], fun d sp w hw => tame_rounds k _ (tree_tame h hw)⟩

theorem tame_of {as : Alts} (h : as.ok = true) {t : Node} (hc : compile as.spell = some t) {d sp : Bool} {w : Nat}
    (hw : as.tame d sp w = true) : tame d sp w t = true := by
  obtain ⟨t', h1, h2⟩ := compile_tame h
  rw [hc] at h1; cases h1
  exact h2 d sp w hw

/-- **C18 (partial).** Every well-formed pattern without `$`, without `\s` in a negated class and with at least one one-character (or shorter) text
for whatever stands before a greedy `?`, compiles; and on every query, whatever memory surrounds it, matching and advancing the result any number of
times has no undefined behaviour, gives what it gives when no byte outside the query is readable, and every view lies inside the query.
Missing: the other patterns. -/
theorem C18_written_partial (as : Alts) (hok : as.ok = true) (ht : as.tame false false 1 = true) :
    ∃ t, compile as.spell = some t ∧ ∀ cx : Ctx,
      (∀ fuel, construct cx t fuel = construct (bare cx.query) t fuel ∧ construct cx t fuel ≠ .ub) ∧
      (∀ st, Reach cx t st →
        (∀ fuel, next cx t fuel st = next (bare cx.query) t fuel st ∧ next cx t fuel st ≠ .ub) ∧
        (∀ k v, getGroup st k = some v → InsideQuery cx.query v)) := by
  obtain ⟨t, h1, h2⟩ := compile_tame hok
  exact ⟨t, h1, fun cx => C18_stays_inside_partial _ t h1 (tame_safe false t (h2 _ _ _ ht)) cx⟩

/-- **C19 (partial).** The same with `$`, if a NUL byte follows the query: nothing beyond that NUL matters. -/
theorem C19_written_partial (as : Alts) (hok : as.ok = true) (ht : as.tame true false 1 = true) :
    ∃ t, compile as.spell = some t ∧ ∀ cx : Ctx, cx.post.head? = some 0 →
      (∀ fuel, construct cx t fuel = construct (cstr cx.query) t fuel ∧ construct cx t fuel ≠ .ub) ∧
      (∀ st, Reach cx t st →
        (∀ fuel, next cx t fuel st = next (cstr cx.query) t fuel st ∧ next cx t fuel st ≠ .ub) ∧
        (∀ k v, getGroup st k = some v → InsideQuery cx.query v)) := by
  obtain ⟨t, h1, h2⟩ := compile_tame hok
  exact ⟨t, h1, fun cx hn => C19_stays_inside_nul_partial _ t h1 (tame_safe true t (h2 _ _ _ ht)) cx hn⟩

/-- The pattern meets the condition of C18, or that of C19 and the query is followed by a NUL byte, or it has nothing but patterns that can match
the empty text before a greedy `?`. -/
def OrderlyWritten (cx : Ctx) (as : Alts) : Prop :=
  as.tame false false 1 = true ∨ (as.tame true false 1 = true ∧ cx.post.head? = some 0) ∨ as.tame true true 0 = true

theorem orderly_of {as : Alts} (h : as.ok = true) {t : Node} (hc : compile as.spell = some t) {cx : Ctx} (ho : OrderlyWritten cx as) : Orderly cx t := by
  rcases ho with h1 | ⟨h1, h2⟩ | h1
  · exact Or.inl (tame_safe false t (tame_of h hc h1))
  · exact Or.inr (Or.inl ⟨tame_safe true t (tame_of h hc h1), h2⟩)
  · exact Or.inr (Or.inr (tame_forward t (tame_of h hc h1)))

/-- **C31 (partial).** For such patterns a later match begins at or after the end of every earlier one.  Missing: the other patterns. -/
theorem C31_written_partial (as : Alts) (hok : as.ok = true) (t : Node) (h : compile as.spell = some t) (cx : Ctx) (ho : OrderlyWritten cx as)
    (st st' : St) (hr : Reach cx t st) (hl : Later cx t st st') : st.pos ≤ st'.start ∧ st'.start ≤ st'.pos :=
  C31_ordered_disjoint_partial _ t h cx (orderly_of hok h ho) st st' hr hl

/-- **C32 (partial).** For such patterns the search of the constructor and of every `next()` ends within as many steps as the query has
characters.  Missing: the other patterns. -/
theorem C32_written_partial (as : Alts) (hok : as.ok = true) (t : Node) (h : compile as.spell = some t) (cx : Ctx) (ho : OrderlyWritten cx as)
    (fuel : Nat) (hf : cx.query.length ≤ fuel) :
    construct cx t fuel ≠ .timeout ∧ ∀ st, Reach cx t st → next cx t fuel st ≠ .timeout :=
  C32_terminates_partial _ t h cx (orderly_of hok h ho) fuel hf

/-- **C36 (partial).** For every well-formed pattern that meets the condition of C18: every group of every result lies inside the query, the groups
of a result of `next()` lie at or behind the place where that search began, and if nothing but what can match the empty text stands before a greedy
`?` no group ends before it begins.  Missing: the other patterns. -/
theorem C36_written_partial (as : Alts) (hok : as.ok = true) (ht : as.tame false false 1 = true) (t : Node) (h : compile as.spell = some t) (cx : Ctx)
    (st : St) (hr : Reach cx t st) :
    (∀ v ∈ st.groups, InsideQuery cx.query v) ∧
    (∀ fuel st', next cx t fuel st = .ok st' → ∀ b e, some (b, e) ∈ st'.groups → st.pos ≤ b ∧ st.pos ≤ e) ∧
    (as.tame true true 0 = true → ∀ b e, some (b, e) ∈ st.groups → b ≤ e) := by
  obtain ⟨h1, h2, h3⟩ := C36_groups_inside_partial _ t h (tame_safe false t (tame_of hok h ht)) cx st hr
  exact ⟨h1, h2, fun h4 => h3 (tame_forward t (tame_of hok h h4))⟩

/-- **C59 (partial).** For every well-formed pattern that meets the condition of C18 (or of C19, with a NUL behind the query): the match of an
accepted result can be read and is the piece of the query the view shows, a result that is not accepted reads as the empty text, and if nothing but
what can match the empty text stands before a greedy `?` the same holds for every group.  Missing: the other patterns. -/
theorem C59_written_partial (as : Alts) (hok : as.ok = true) (nul : Bool) (ht : as.tame nul false 1 = true) (t : Node)
    (h : compile as.spell = some t) (cx : Ctx) (hnul : nul = true → cx.post.head? = some 0) (st : St) (hr : Reach cx t st) :
    (st.accepted = true → ∃ text, viewBytes cx (toView st) = some text ∧ Shows cx.query (toView st) text) ∧
    (st.accepted = false → viewBytes cx (toView st) = some []) ∧
    (as.tame true true 0 = true → ∀ k v, getGroup st (k + 1) = some v →
      ∃ text, viewBytes cx v = some text ∧ (v = none ∧ text = [] ∨ Shows cx.query v text)) := by
  obtain ⟨h1, h2, h3⟩ := C59_reads_the_query_partial _ t h nul (tame_safe nul t (tame_of hok h ht)) cx hnul st hr
  exact ⟨h1, h2, fun h4 => h3 (tame_forward t (tame_of hok h h4))⟩

/-- `([^a-f\-]{2,3}?|\w+)\s*x?|(?:ab|c)?d` -/
def tameSample : Alts :=
  .more false (.cons (.group true (.more false (.cons (.cls true [.rng 97 102, .esc 45] false) (.between [50] [51] .lazy) (.nil false))
      (.last false (.cons (.esc 119) (.plus .greedy) (.nil false))))) .once
    (.cons (.esc 115) (.star .greedy) (.cons (.chr 120) (.opt .greedy) (.nil false))))
  (.last false (.cons (.group false (.more false (.cons (.chr 97) .once (.cons (.chr 98) .once (.nil false)))
      (.last false (.cons (.chr 99) .once (.nil false))))) (.opt .greedy) (.cons (.chr 100) .once (.nil false))))

-- the conditions hold of it, and of the pattern of the other examples if a NUL follows
example : tameSample.ok = true ∧ tameSample.tame false false 1 = true ∧ tameSample.tame true true 0 = false ∧
    tameSample.spell = str "([^a-f\\-]{2,3}?|\\w+)\\s*x?|(?:ab|c)?d" := by decide
example : samplePattern.ok = true ∧ samplePattern.tame true false 1 = true ∧ samplePattern.tame true true 0 = true ∧
    samplePattern.tame false false 1 = false := by decide
-- the conditions exclude the refuted patterns
example : (Alts.last false (.cons (.group false (.last false (.cons (.chr 97) .once (.cons (.chr 98) .once (.nil false))))) (.opt .greedy)
      (.nil false))).tame true true 1 = false ∧
    (Alts.last false (.cons (.cls true [.esc 115] false) .once (.nil false))).tame true false 9 = false := by decide

/-! ## what is reported belongs to the pattern -/

/-- **C20 (partial).** For every well-formed pattern that is `sure` and `tame` (conditions on the pattern as written), every query (followed by a NUL byte
if the pattern contains `$`) and every result obtained by matching and calling `next()` any number of times: if the result is accepted, the text
it reports can be read and is text that the pattern as written stands for, where it stands in the query.  Missing: the other patterns, many of
which accept other texts (refutations in Props/Sound.lean). -/
theorem C20_written_partial (as : Alts) (hok : as.ok = true) (hs : as.sure false true = true) (nul : Bool) (ht : as.tame nul false 1 = true) (t : Node)
    (h : compile as.spell = some t) (cx : Ctx) (hnul : nul = true → cx.post.head? = some 0) (st : St) (hr : Reach cx t st)
    (ha : st.accepted = true) :
    ∃ (i j : Nat) (text : List Int), toView st = some ((i : Int), (j : Int)) ∧ Den cx.query as.sem i j ∧
      viewBytes cx (toView st) = some text ∧ Shows cx.query (toView st) text := by
  have hsafe := tame_safe nul t (tame_of hok h ht)
  obtain ⟨i, j, h1, h2⟩ := C47_accepted_partial as hok t h nul hsafe (compile_sure hok hs h) cx hnul st hr ha
  obtain ⟨text, h3, h4⟩ := (C59_reads_the_query_partial _ t h nul hsafe cx hnul st hr).1 ha
  exact ⟨i, j, text, h1, h2, h3, h4⟩

/-- **C45 (partial).** Under the same conditions, and whether or not the result is accepted: every group `result[k + 1]` that is not empty by default is a
piece of the query that belongs to the language of the content of one of the capturing groups of the pattern as written.  Missing: the other
patterns, and which of the groups it is (C11, C49). -/
theorem C45_written_partial (as : Alts) (hok : as.ok = true) (hs : as.sure false true = true) (nul : Bool) (ht : as.tame nul false 1 = true) (t : Node)
    (h : compile as.spell = some t) (cx : Ctx) (hnul : nul = true → cx.post.head? = some 0) (st : St) (hr : Reach cx t st) (k : Nat) (x y : Int)
    (hg : getGroup st (k + 1) = some (some (x, y))) :
    ∃ (i j : Nat) (content : Alts), x = i ∧ y = j ∧ content ∈ as.groups ∧ Den cx.query content.sem i j := by
  obtain ⟨i, j, c, h1, h2, h3, h4⟩ := C45_captures_in_group_language_partial _ _ t (build_tree as hok) h nul
    (tame_safe nul t (tame_of hok h ht)) (compile_sure hok hs h) cx hnul st hr k x y hg
  obtain ⟨g, hg1, hg2⟩ := tops_groups as hok 0 (k, c) (by simpa [Alts.tree, capsOf] using h3)
  exact ⟨i, j, g, h1, h2, hg1, (hg2 _ _ _).1 h4⟩

/-- **C33 (partial).** Under the same conditions, and if the pattern cannot match the empty text: on every query the range-for ends, having visited at
most as many matches as the query has characters.  Missing: the other patterns. -/
theorem C33_written_partial (as : Alts) (hok : as.ok = true) (hs : as.sure false true = true) (hpos : 0 < as.shortest) (nul : Bool)
    (ht : as.tame nul false 1 = true) (t : Node) (h : compile as.spell = some t) (cx : Ctx) (hnul : nul = true → cx.post.head? = some 0) (fuel : Nat)
    (hf : cx.query.length ≤ fuel) (r : St) :
    ∃ vs, rangeFor cx t fuel cx.query.length r = some (vs, true) ∧ vs.length ≤ cx.query.length := by
  refine iteration_ends h (tame_safe nul t (tame_of hok h ht)) cx hnul ?_ fuel hf r
  intro st hr ha
  obtain ⟨i, j, _, hv, hden, _⟩ := C20_written_partial as hok hs nul ht t h cx hnul st hr ha
  have := alts_shortest as i j hden
  simp only [toView, ha, if_true, Option.some.injEq, Prod.mk.injEq] at hv
  omega

/-- `(\d+)-(\d+)-(\d+)` -/
def dateWritten : Alts :=
  let num : Atom := .group true (.last false (.cons (.esc 100) (.plus .greedy) (.nil false)))
  .last false (.cons num .once (.cons (.chr 45) .once (.cons num .once (.cons (.chr 45) .once (.cons num .once (.nil false))))))

/-- `[\w.\-]+@[\w\-]+\.[\w.]+` -/
def mailWritten : Alts :=
  .last false (.cons (.cls false [.esc 119, .chr 46, .esc 45] false) (.plus .greedy) (.cons (.chr 64) .once
    (.cons (.cls false [.esc 119, .esc 45] false) (.plus .greedy) (.cons (.esc 46) .once (.cons (.cls false [.esc 119, .chr 46] false) (.plus .greedy) (.nil false))))))

/-- `"(.*)"|a[^a-f]+|ab?c|k(?:x(ab)+|\d{2,3}?x)$` -/
def mixedWritten : Alts :=
  .more false (.cons (.chr 34) .once (.cons (.group true (.last false (.cons .dot (.star .greedy) (.nil false)))) .once (.cons (.chr 34) .once (.nil false))))
  (.more false (.cons (.chr 97) .once (.cons (.cls true [.rng 97 102] false) (.plus .greedy) (.nil false)))
  (.more false (.cons (.chr 97) .once (.cons (.chr 98) (.opt .greedy) (.cons (.chr 99) .once (.nil false))))
  (.last false (.cons (.chr 107) .once (.cons (.group false
    (.more false (.cons (.chr 120) .once (.cons (.group true (.last false (.cons (.chr 97) .once (.cons (.chr 98) .once (.nil false))))) (.plus .greedy) (.nil false)))
    (.last false (.cons (.esc 100) (.between [50] [51] .lazy) (.cons (.chr 120) .once (.nil false)))))) .once (.nil true))))))

-- patterns of the README and of the tests meet the conditions
example : dateWritten.ok = true ∧ dateWritten.sure false true = true ∧ dateWritten.tame false false 1 = true ∧ 0 < dateWritten.shortest ∧
    dateWritten.spell = str "(\\d+)-(\\d+)-(\\d+)" := by decide +kernel
example : mailWritten.ok = true ∧ mailWritten.sure false true = true ∧ mailWritten.tame false false 1 = true ∧ 0 < mailWritten.shortest ∧
    mailWritten.spell = str "[\\w.\\-]+@[\\w\\-]+\\.[\\w.]+" := by decide +kernel
example : mixedWritten.ok = true ∧ mixedWritten.sure false true = true ∧ mixedWritten.tame true false 1 = true ∧ mixedWritten.shortest = 2 ∧
    mixedWritten.spell = str "\"(.*)\"|a[^a-f]+|ab?c|k(?:x(ab)+|\\d{2,3}?x)$" := by decide +kernel
-- as do patterns with parts that can match nothing in a row: `b*a*?b*` and `(?:ab)+c*d*`
example : let p : Alts := .last false (.cons (.chr 98) (.star .greedy) (.cons (.chr 97) (.star .lazy) (.cons (.chr 98) (.star .greedy) (.nil false))))
    p.ok = true ∧ p.sure false true = true ∧ p.tame false false 1 = true ∧ p.spell = str "b*a*?b*" := by decide +kernel
example : let p : Alts := .last false (.cons (.group false (.last false (.cons (.chr 97) .once (.cons (.chr 98) .once (.nil false))))) (.plus .greedy)
      (.cons (.chr 99) (.star .greedy) (.cons (.chr 100) (.star .greedy) (.nil false))))
    p.ok = true ∧ p.sure false true = true ∧ p.tame false false 1 = true ∧ p.spell = str "(?:ab)+c*d*" := by decide +kernel
-- and the condition excludes `(a{2}b|c)` and `(?:ab)*a`
example : (Alts.last false (.cons (.group true (.more false (.cons (.chr 97) (.exact [50] .greedy) (.cons (.chr 98) .once (.nil false)))
      (.last false (.cons (.chr 99) .once (.nil false))))) .once (.nil false))).sure false true = false ∧
    (Alts.last false (.cons (.group false (.last false (.cons (.chr 97) .once (.cons (.chr 98) .once (.nil false))))) (.star .greedy)
      (.cons (.chr 97) .once (.nil false)))).sure false true = false := by decide +kernel

end ERegex.Props

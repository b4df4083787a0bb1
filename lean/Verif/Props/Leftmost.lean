import Verif.Proofs.Leftmost
import Verif.Proofs.Size
import Verif.Props.Sound
/-!
# C30 : the search finds the leftmost match

`build p` is the tree of the pattern as written, `toRx` reads it as a textbook regular expression, `Den q r i j` is the textbook
relation "`r` matches `q[i..j)`" (Spec/Lang.lean).  `compile p` is the optimized tree that is run.  `finds e nul p` collects
decidable conditions on that tree: `safe` (Proofs/Safety.lean), `snd` (Proofs/Sound.lean), `cm` (Proofs/Complete.lean) and
`skipOk` (Proofs/Leftmost.lean).
-/
set_option autoImplicit false
namespace ERegex.Props
open ERegex ERegex.Spec
open ERegex.Conformance (lit m)

/-- The conditions on the compiled tree. `nul`: the query is followed by a NUL byte; `e`: the query may be empty. -/
def findsTree (nul e : Bool) (t : Node) : Bool :=
  safe nul t && snd false true t && cm e t true true .univ false false && skipOk t

/-- The same for a pattern. -/
def finds (nul e : Bool) (p : String) : Bool :=
  match compile (str p) with
  | some t => findsTree nul e t
  | none => false

/-- `s` is the first position of `q` at or after `frm` where a match of `r` begins. -/
def FirstStart (q : List Int) (r : Rx) (frm s : Nat) : Prop :=
  frm ≤ s ∧ (∃ j, Den q r s j) ∧ ∀ x j, frm ≤ x → Den q r x j → s ≤ x

theorem compile_attempts {p : List Int} {t : Node} (h : compile p = some t) {nul e : Bool} (hf : findsTree nul e t = true) {cx : Ctx}
    (hnul : nul = true → cx.post.head? = some 0) (he : e = false → 0 < cx.query.length) (hlen : cx.query.length < 4294967295) :
    Attempts cx t := by
  simp only [findsTree, Bool.and_eq_true] at hf
  exact attempts hnul he hlen hf.1.1.1 hf.1.1.2 hf.1.2 hf.2 (C10_slots_in_array p t h)

theorem compile_rounds {p : List Int} {b t : Node} (hb : build p = some b) (h : compile p = some t) : ∃ k, t = rounds k b := by
  simp only [compile, hb] at h
  exact optimize_rounds h

theorem starts_iff {p : List Int} {b t : Node} (hb : build p = some b) (h : compile p = some t) (q : List Int) (i j : Nat) :
    Den q (toRx t) i j ↔ Den q (toRx b) i j := by
  obtain ⟨k, rfl⟩ := compile_rounds hb h
  exact rounds_same k b q i j

theorem LeftMost.spec {p : List Int} {b t : Node} (hb : build p = some b) (h : compile p = some t) {cx : Ctx} {st : St}
    (hl : LeftMost cx t st) (h0 : 0 ≤ st.pos) :
    (st.accepted = true → ∃ s j : Nat, toView st = some ((s : Int), (j : Int)) ∧ Den cx.query (toRx b) s j ∧
      FirstStart cx.query (toRx b) 0 s) ∧
    ((∃ x j, (x = 0 ∨ x < cx.query.length) ∧ Den cx.query (toRx b) x j) → st.accepted = true) := by
  refine ⟨fun ha => ?_, ?_⟩
  · obtain ⟨s, s1, _, s2, s3⟩ := hl.hit ha
    have hd := (starts_iff hb h _ _ _).1 s2
    refine ⟨s, off st, ?_, hd, Nat.zero_le _, ⟨_, hd⟩, fun x j _ hx => s3 x ⟨j, (starts_iff hb h _ _ _).2 hx⟩⟩
    simp only [toView, ha, if_true, Option.some.injEq, Prod.mk.injEq]
    unfold off; omega
  · rintro ⟨x, j, hx, hd⟩
    cases ha : st.accepted with
    | true => rfl
    | false => exact absurd ⟨j, (starts_iff hb h _ _ _).2 hd⟩ (hl.miss ha x hx)

/-- **C30 (partial).** For every pattern whose compiled tree meets the conditions, every query shorter than 2^32-1 and every
memory around it: matching returns, and
* if a match of the pattern as written begins at 0 or at any other position before the end of the query, the result is accepted;
* an accepted result begins at the smallest position at which a match begins, and its text is a match there.

Missing: the other patterns, for many of which it is false (refutations below); the end of the query as a starting position, which
is never tried (`C30_refuted_end`, and `C30_nonempty_partial` for patterns that match no empty text). -/
theorem C30_leftmost_partial (p : List Int) (b t : Node) (hb : build p = some b) (h : compile p = some t) (nul e : Bool)
    (hf : findsTree nul e t = true) (cx : Ctx) (hnul : nul = true → cx.post.head? = some 0)
    (he : e = false → 0 < cx.query.length) (hlen : cx.query.length < 4294967295) (fuel : Nat) (hfuel : cx.query.length ≤ fuel) :
    ∃ st, construct cx t fuel = .ok st ∧
      (st.accepted = true → ∃ s j : Nat, toView st = some ((s : Int), (j : Int)) ∧ Den cx.query (toRx b) s j ∧
        FirstStart cx.query (toRx b) 0 s) ∧
      ((∃ x j, (x = 0 ∨ x < cx.query.length) ∧ Den cx.query (toRx b) x j) → st.accepted = true) := by
  have ha := compile_attempts h hf hnul he hlen
  rcases construct_good ha.good fuel with ⟨st, e1, hi⟩ | ⟨_, h2⟩
  · have := hi.start
    exact ⟨st, e1, LeftMost.spec hb h (construct_left ha e1) (by omega)⟩
  · simp only [Ctx.qend] at h2; omega

/-- **C30 (partial).** The same for `next()` on any result obtained so far: it returns, and finds the first match that begins
at or after the end of the previous one. -/
theorem C30_next_partial (p : List Int) (b t : Node) (hb : build p = some b) (h : compile p = some t) (nul e : Bool)
    (hf : findsTree nul e t = true) (cx : Ctx) (hnul : nul = true → cx.post.head? = some 0)
    (he : e = false → 0 < cx.query.length) (hlen : cx.query.length < 4294967295) (fuel : Nat) (hfuel : cx.query.length ≤ fuel)
    (st : St) (hr : Reach cx t st) (f i : Nat) (hv : toView st = some ((f : Int), (i : Int))) :
    ∃ st', next cx t fuel st = .ok st' ∧
      (st'.accepted = true → ∃ s j : Nat, toView st' = some ((s : Int), (j : Int)) ∧ Den cx.query (toRx b) s j ∧
        FirstStart cx.query (toRx b) i s) ∧
      ((∃ x j, i ≤ x ∧ x < cx.query.length ∧ Den cx.query (toRx b) x j) → st'.accepted = true) := by
  have ha := compile_attempts h hf hnul he hlen
  have hpos : st.pos = i := by
    simp only [toView] at hv
    split at hv
    · simp only [Option.some.injEq, Prod.mk.injEq] at hv; exact hv.2
    · simp at hv
  have hb2 := inv_pos (reach_inv ha.good hr)
  rcases next_good ha.good fuel st hb2.1 hb2.2 with ⟨st', e1, hi⟩ | ⟨_, h2⟩
  · have hl := next_left ha hb2.1 e1
    have hoff : off st = i := by unfold off; omega
    rw [hoff] at hl
    refine ⟨st', e1, fun hacc => ?_, ?_⟩
    · obtain ⟨s, s1, s2, _, s3, s4⟩ := hl.hit hacc
      have hd := (starts_iff hb h _ _ _).1 s3
      have hp := hi.acc hacc
      have hf := hi.from_le
      refine ⟨s, off st', ?_, hd, s2, ⟨_, hd⟩, fun x j hx hdx => s4 x hx ⟨j, (starts_iff hb h _ _ _).2 hdx⟩⟩
      simp only [toView, hacc, if_true, Option.some.injEq, Prod.mk.injEq]
      unfold off; omega
    · rintro ⟨x, j, hx1, hx2, hd⟩
      cases hacc : st'.accepted with
      | true => rfl
      | false => exact absurd ⟨j, (starts_iff hb h _ _ _).2 hd⟩ (hl.miss hacc x hx1 hx2)
  · simp only [Ctx.qend] at h2; omega

/-- **C30 (partial).** For patterns that also match no empty text (minimum size ≥ 1 and no class with an empty member): the result
is accepted exactly when the pattern matches somewhere in the query, and then it begins at the smallest such position. -/
theorem C30_nonempty_partial (p : List Int) (b t : Node) (hb : build p = some b) (h : compile p = some t) (nul e : Bool)
    (hf : findsTree nul e t = true) (hmin : 1 ≤ minSize t) (hneg : negOk t = true) (cx : Ctx)
    (hnul : nul = true → cx.post.head? = some 0) (he : e = false → 0 < cx.query.length) (hlen : cx.query.length < 4294967295)
    (fuel : Nat) (hfuel : cx.query.length ≤ fuel) :
    ∃ st, construct cx t fuel = .ok st ∧
      (st.accepted = true ↔ ∃ x j, x ≤ cx.query.length ∧ Den cx.query (toRx b) x j) ∧
      (st.accepted = true → ∃ s j : Nat, toView st = some ((s : Int), (j : Int)) ∧ Den cx.query (toRx b) s j ∧
        FirstStart cx.query (toRx b) 0 s) := by
  obtain ⟨st, e1, h1, h2⟩ := C30_leftmost_partial p b t hb h nul e hf cx hnul he hlen fuel hfuel
  refine ⟨st, e1, ⟨fun ha => ?_, ?_⟩, h1⟩
  · have ha' := compile_attempts h hf hnul he hlen
    rcases construct_good ha'.good fuel with ⟨st2, e2, hi⟩ | ⟨e2, _⟩
    · rw [e1] at e2
      simp only [Outcome.ok.injEq] at e2
      subst e2
      obtain ⟨s, j, hv, hd, _⟩ := h1 ha
      have h3 := hi.start
      have h4 := hi.acc ha
      simp only [toView, ha, if_true, Option.some.injEq, Prod.mk.injEq] at hv
      simp only [Ctx.qend] at h4
      exact ⟨s, j, by omega, hd⟩
    · rw [e1] at e2; simp at e2
  · rintro ⟨x, j, hx, hd⟩
    refine h2 ⟨x, j, Or.inr ?_, hd⟩
    have h3 := min_den cx.query t hneg x j ((starts_iff hb h _ _ _).2 hd)
    have h4 := (den_le cx.query _ x j hd).2 hx
    omega

-- patterns of the README, of the benchmark and of the tests that meet the conditions for every query
example : ["\\w+", "a(?:a(b))cd", "[\\w.\\-]+@[\\w\\-]+\\.[\\w.]+", "(\\d+)-(\\d+)-(\\d+)", "a[^a-fh]+", "\"(.*)\"", "a|bc|cd|d",
    "(a{1,}?)a", "ab?c", "\\d{4}", "(\\w+)=(\\d+)", "a*?b", "x\\d{2}y", "cat|dog", "\\d+\\.\\d+", "<(\\w+)>", "a.*b", "\\w++@",
    "(?:ab)+", "a(b(c)d)e", ".*"].all (finds false true) = true := by decide +kernel
-- and patterns in which parts that can match nothing follow
example : ["b+a*", "ab?a?", "(b)b*", "b*a*?b*", "(?:ab)+c*d*", "(\\w+)\\s*", "\\w+\\s*=?", "a(b*)(c*)", "\\d+(?:\\.\\d+)*", "\\w+(?:, ?\\w+)*",
    "\\d{1,3}(?:,\\d{3})*", "a{2,4}b*", "(?:a|b)+?c*"].all (finds false true) = true := by decide +kernel
-- with a NUL after the query, or for queries that are not empty
example : (["a$", "\\w+$"].all (finds true true) && ["^a", "^\\w+"].all (finds false false)) = true := by decide +kernel
-- and a non-trivial instance of the statement
example : ∃ b t, build (str "\\d+\\.\\d+") = some b ∧ compile (str "\\d+\\.\\d+") = some t ∧ findsTree false true t = true ∧
    1 ≤ minSize t ∧ negOk t = true ∧ m "\\d+\\.\\d+" "ab 12.x 3.14" = some [some "3.14"] ∧
    Den (str "ab 12.x 3.14") (toRx b) 8 12 := by
  obtain ⟨b, hb⟩ : ∃ b, build (str "\\d+\\.\\d+") = some b := ⟨_, rfl⟩
  obtain ⟨t, ht⟩ : ∃ t, compile (str "\\d+\\.\\d+") = some t := ⟨_, rfl⟩
  have h1 : ((compile (str "\\d+\\.\\d+")).map (fun t => findsTree false true t && decide (1 ≤ minSize t) && negOk t)) = some true := by
    decide +kernel
  have h2 : ((build (str "\\d+\\.\\d+")).map (fun b => ends (str "ab 12.x 3.14") (toRx b) 8)) = some [11, 12] := by decide +kernel
  rw [ht] at h1
  rw [hb] at h2
  simp only [Option.map_some, Option.some.injEq, Bool.and_eq_true, decide_eq_true_eq] at h1 h2
  exact ⟨b, t, hb, ht, h1.1.1, h1.1.2, h1.2, by decide +kernel, (den_iff_ends (by decide)).2 (by rw [h2]; decide)⟩

/-- The pattern `p` matches `s` at offset `i`, but the library reports no match in `s`, or one that begins later. -/
def MissesLeftmost (p s : String) (i : Nat) : Prop := ∃ b t st j, build (str p) = some b ∧ compile (str p) = some t ∧
  construct (lit s) t 100 = .ok st ∧ Den (str s) (toRx b) i j ∧ (st.accepted = false ∨ (i : Int) < st.start)

/-- Checking `MissesLeftmost`. -/
def missesLeftmost (p s : String) (i : Nat) : Bool :=
  match build (str p), compile (str p) with
  | some b, some t =>
    match construct (lit s) t 100 with
    | .ok st => decide (i ≤ (str s).length) && !(ends (str s) (toRx b) i).isEmpty && (!st.accepted || decide ((i : Int) < st.start))
    | _ => false
  | _, _ => false

theorem missesLeftmost_of {p s : String} {i : Nat} (h : missesLeftmost p s i = true) : MissesLeftmost p s i := by
  simp only [missesLeftmost] at h
  split at h
  · rename_i b t hb ht
    split at h
    · rename_i st hst
      simp only [Bool.and_eq_true, Bool.not_eq_true', List.isEmpty_eq_false_iff, decide_eq_true_eq, Bool.or_eq_true] at h
      obtain ⟨j, hj⟩ := List.exists_mem_of_ne_nil _ h.1.2
      exact ⟨b, t, st, j, hb, ht, hst, (den_iff_ends h.1.1).2 hj, h.2⟩
    · simp at h
  · simp at h

/-- **C30, refuted.** A failed attempt leaves the position after the part that did match, and the search continues one past it:
`aa` of `a{2}b` on `aaab`, so the attempt at 1 is never made.  The same for `\d{4}-\d{2}` on `12024-05` … -/
theorem C30_refuted_repeat : MissesLeftmost "a{2}b" "aaab" 1 ∧ MissesLeftmost "\\d{4}-\\d{2}" "12024-05" 1 ∧
    MissesLeftmost "a{2,3}b" "aaaab" 1 :=
  ⟨missesLeftmost_of (by decide +kernel), missesLeftmost_of (by decide +kernel), missesLeftmost_of (by decide +kernel)⟩
/-- … and after a group that matched: no match of `(ab)c` is found in `xababc`, nor of `(\d\d)-(\d\d)` in `123-45`. -/
theorem C30_refuted_group : MissesLeftmost "(ab)c" "xababc" 3 ∧ MissesLeftmost "(\\d\\d)-(\\d\\d)" "123-45" 1 ∧
    MissesLeftmost "(ab|c)d" "xabcd" 3 :=
  ⟨missesLeftmost_of (by decide +kernel), missesLeftmost_of (by decide +kernel), missesLeftmost_of (by decide +kernel)⟩
/-- **C30, refuted.** The same for an optional character: `a?b` finds only the `b` of `xaab`. -/
theorem C30_refuted_optional : MissesLeftmost "a?b" "xaab" 2 := missesLeftmost_of (by decide +kernel)
/-- **C30, refuted.** A negated class and `\s` advance even when they fail, so every second candidate is skipped. -/
theorem C30_refuted_negated : MissesLeftmost "[^,]+" ",,a" 2 ∧ MissesLeftmost "\\s" "xx y" 2 :=
  ⟨missesLeftmost_of (by decide +kernel), missesLeftmost_of (by decide +kernel)⟩
/-- **C30, refuted.** The end of the query is never a candidate unless the query is empty. -/
theorem C30_refuted_end : MissesLeftmost "$" "abc" 3 := missesLeftmost_of (by decide +kernel)
/-- **C30, refuted.** The second alternative is tried where the first one failed. -/
theorem C30_refuted_alternative : MissesLeftmost "\\d+a|\\d+b" "12b" 0 ∧ MissesLeftmost "b|\\w+@" "ab" 1 :=
  ⟨missesLeftmost_of (by decide +kernel), missesLeftmost_of (by decide +kernel)⟩
/-- **C30, refuted.** An alternative inside a group is not reconsidered when what follows fails. -/
theorem C30_refuted_no_backtrack : MissesLeftmost "(a|ab)c" "abc" 0 := missesLeftmost_of (by decide +kernel)
/-- **C30, refuted.** The optional group is taken for a fixed-width one (see C46) and retried at the wrong place. -/
theorem C30_refuted_width : MissesLeftmost "(?:ab*)?abb" "abb" 0 := missesLeftmost_of (by decide +kernel)

end ERegex.Props

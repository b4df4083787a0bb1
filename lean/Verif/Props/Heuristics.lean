import Verif.Props.Leftmost
import Verif.Props.Repeat
/-!
# C14 : the heuristics do not alter what is matched

`build p` is the tree of the pattern as written, `compile p` the tree after the heuristics.  Both are run by the same matcher,
so the claim compares `construct cx b` with `construct cx t`.
-/
set_option autoImplicit false
namespace ERegex.Props
open ERegex ERegex.Spec
open ERegex.Conformance (lit m)

theorem build_slots_lt {p : List Int} {b : Node} (hb : build p = some b) : ∀ s ∈ slots b, s < groupsOf b := by
  obtain ⟨ts, _, _, h5⟩ := build_built hb
  rw [groups_slots]
  exact h5

theorem rounds_groups (k : Nat) (b : Node) : groupsOf (rounds k b) = groupsOf b := by
  rw [groups_slots, groups_slots, rounds_slots]

/-- **C14 (partial).** For every pattern such that both the tree as written and the optimized tree meet the conditions of C30,
every query and every memory around it: matching with either returns, both find a match or none does, and the matches begin at
the same position.  Missing: the other patterns, where it is false for many (refutations below); the end of the match
(`C14_greedy_as_possessive_partial`, `C14_lazy_as_possessive_partial` and `C14_refuted_text`). -/
theorem C14_same_matches_partial (p : List Int) (b t : Node) (hb : build p = some b) (h : compile p = some t) (nul e : Bool)
    (hfb : findsTree nul e b = true) (hft : findsTree nul e t = true) (cx : Ctx) (hnul : nul = true → cx.post.head? = some 0)
    (he : e = false → 0 < cx.query.length) (hlen : cx.query.length < 4294967295) (fuel : Nat) (hfuel : cx.query.length ≤ fuel) :
    ∃ sb st, construct cx b fuel = .ok sb ∧ construct cx t fuel = .ok st ∧
      (sb.accepted = true ↔ st.accepted = true) ∧ (sb.accepted = true → sb.start = st.start) := by
  have hat := compile_attempts h hft hnul he hlen
  have hab : Attempts cx b := by
    simp only [findsTree, Bool.and_eq_true] at hfb
    exact attempts hnul he hlen hfb.1.1.1 hfb.1.1.2 hfb.1.2 hfb.2 (build_slots_lt hb)
  have hs := starts_iff hb h cx.query
  rcases construct_good hab.good fuel with ⟨sb, e1, ib⟩ | ⟨_, h2⟩
  · rcases construct_good hat.good fuel with ⟨st, e2, it⟩ | ⟨_, h2⟩
    · have lb := construct_left hab e1
      have lt := construct_left hat e2
      have hit : sb.accepted = true → st.accepted = true := by
        intro ha
        obtain ⟨s, _, s0, s2, _⟩ := lb.hit ha
        cases hc : st.accepted with
        | true => rfl
        | false => exact absurd ⟨_, (hs _ _).2 s2⟩ (lt.miss hc s s0)
      have hit' : st.accepted = true → sb.accepted = true := by
        intro ha
        obtain ⟨s, _, s0, s2, _⟩ := lt.hit ha
        cases hc : sb.accepted with
        | true => rfl
        | false => exact absurd ⟨_, (hs _ _).1 s2⟩ (lb.miss hc s s0)
      refine ⟨sb, st, e1, e2, ⟨hit, hit'⟩, fun ha => ?_⟩
      obtain ⟨s, s1, _, s2, s3⟩ := lb.hit ha
      obtain ⟨s', s1', _, s2', s3'⟩ := lt.hit (hit ha)
      have h1 := s3 s' ⟨_, (hs _ _).1 s2'⟩
      have h2 := s3' s ⟨_, (hs _ _).2 s2⟩
      rw [s1, s1']; omega
    · simp only [Ctx.qend] at h2; omega
  · simp only [Ctx.qend] at h2; omega

-- patterns both of whose trees meet the conditions, most of them changed by the heuristics
example : ["\\w+", "a(?:a(b))cd", "[\\w.\\-]+@[\\w\\-]+\\.[\\w.]+", "(\\d+)-(\\d+)-(\\d+)", "\"(.*)\"", "a|bc|cd|d", "(a{1,}?)a",
    "\\d{4}", "a+b", "\\w+\\d", "(\\w+)=(\\d+)", "a*?b", "[ab]+c", "\\d+\\.\\d+", "<(\\w+)>", "a.*b", "\\w++@", "(?:ab)+"].all
    (fun p => finds false true p && (match build (str p) with | some b => findsTree false true b | none => false)) = true := by
  decide +kernel

/-- The two runs agree: both defined, accepted or rejected alike, and if accepted with the same end. -/
def SameRun (a b : Option St) : Prop := ∃ x y, a = some x ∧ b = some y ∧ x.accepted = y.accepted ∧ (x.accepted = true → x.pos = y.pos)

theorem restEnds_fails {cx : Ctx} {cs : List Node} {st : St} {x : Nat} {y : Int} (h1 : RestEnds cx cs st x y)
    (h2 : RestFails cx cs st x) : False := by
  obtain ⟨r, e, a, _⟩ := h1
  obtain ⟨r', e', a'⟩ := h2
  rw [e] at e'
  simp only [Option.some.injEq] at e'
  subst e'
  rw [a] at a'; simp at a'

theorem restEnds_unique {cx : Ctx} {cs : List Node} {st : St} {x : Nat} {y z : Int} (h1 : RestEnds cx cs st x y)
    (h2 : RestEnds cx cs st x z) : y = z := by
  obtain ⟨r, e, _, rfl⟩ := h1
  obtain ⟨r', e', _, rfl⟩ := h2
  rw [e] at e'
  simp only [Option.some.injEq] at e'
  rw [e']

/-- **C14 (partial), at one node.** Replacing a greedy repetition of a character class by the possessive one gives the same run
whenever what follows is rejected at every offset that carries a character of the class, which is what the heuristic means to
check.  (That it checks too little is `C14_refuted`.) -/
theorem C14_greedy_as_possessive_partial (cx : Ctx) (m : Node) (p : Int → Bool) (lo hi : Nat) (cs : List Node) (inj : List K) (st : St)
    (i : Nat) (hp : ClassOf m p) (hm : single m = true) (hlh : lo ≤ hi) (hq : ¬ (lo = 0 ∧ hi = 1)) (hne : cs ≠ [])
    (hcl : cleans cs = true) (hi' : st.pos = i) (hf : st.accepted = true ∨ 0 < hi)
    (hg : ∃ r, run cx (.greedy m lo hi cs) inj st = some r) (hr : ∃ r, run cx (.possessive m lo hi cs) inj st = some r)
    (hdis : ∀ x, InClass cx.query p x 1 → RestFails cx cs st x) :
    SameRun (run cx (.greedy m lo hi cs) inj st) (run cx (.possessive m lo hi cs) inj st) := by
  obtain ⟨a, ea⟩ := hg
  obtain ⟨b, eb⟩ := hr
  obtain ⟨g1, g2⟩ := C22_greedy_takes_most_partial cx m p lo hi cs inj st a i hp hm hlh hq hne hcl hi' ea
  obtain ⟨q1, q2⟩ := C24_possessive cx m p lo hi cs inj st b i hp (single_oneCh hm) hlh hf hi' eb
  refine ⟨a, b, ea, eb, ?_⟩
  by_cases hlo : InClass cx.query p i lo
  · obtain ⟨k, ⟨⟨k1, k2⟩, k3⟩, k4, k5, k6⟩ := q1 hlo
    -- greedy can only stop at the largest number
    have only : ∀ n, Admits cx p lo hi cs st i n → n = k := by
      intro n hn
      obtain ⟨n1, n2, n3, y, n4⟩ := hn
      have hle := k3 n ⟨n2, n3⟩
      by_cases hnk : n = k
      · exact hnk
      · exfalso
        have e2 : k = n + 1 + (k - n - 1) := by omega
        rw [e2] at k2
        have := (inClass_add.1 (inClass_add.1 k2).1).2
        exact restEnds_fails n4 (hdis (i + n) this)
    cases ha : a.accepted with
    | true =>
      obtain ⟨n, hn1, hn2⟩ := g1 ha
      have := only n hn1.1
      subst this
      cases hb : b.accepted with
      | true => exact ⟨rfl, fun _ => restEnds_unique hn2 (k5 hb)⟩
      | false => exact absurd hn2 (fun h => restEnds_fails h (k6 hb))
    | false =>
      have := g2 ha k k4 k1 k2
      cases hb : b.accepted with
      | true => exact absurd (k5 hb) (fun h => restEnds_fails h this)
      | false => exact ⟨rfl, by simp⟩
  · have hb := q2 hlo
    cases ha : a.accepted with
    | true =>
      obtain ⟨n, hn1, _⟩ := g1 ha
      exact absurd (inClass_mono hn1.1.2.2.1 hn1.1.1) hlo
    | false => exact ⟨by rw [hb], by simp⟩

/-- **C14 (partial), at one node.** The same for a lazy repetition followed by something. -/
theorem C14_lazy_as_possessive_partial (cx : Ctx) (m : Node) (p : Int → Bool) (lo hi : Nat) (cs : List Node) (inj : List K) (st : St)
    (i : Nat) (hp : ClassOf m p) (hm : oneCh m = true) (hlh : lo ≤ hi) (hne : cs ≠ [])
    (hcl : cleans cs = true) (hi' : st.pos = i) (hl : i ≤ cx.query.length) (hf : st.accepted = true)
    (hg : ∃ r, run cx (.lazy m lo hi cs) inj st = some r) (hr : ∃ r, run cx (.possessive m lo hi cs) inj st = some r)
    (hdis : ∀ x, InClass cx.query p x 1 → RestFails cx cs st x) :
    SameRun (run cx (.lazy m lo hi cs) inj st) (run cx (.possessive m lo hi cs) inj st) := by
  obtain ⟨a, ea⟩ := hg
  obtain ⟨b, eb⟩ := hr
  obtain ⟨g1, g2⟩ := C23_lazy_takes_least_partial cx m p lo hi cs inj st a i hp hm hlh hne hcl (Or.inl hf) hi' hl ea
  obtain ⟨q1, q2⟩ := C24_possessive cx m p lo hi cs inj st b i hp hm hlh (Or.inl hf) hi' eb
  refine ⟨a, b, ea, eb, ?_⟩
  by_cases hlo : InClass cx.query p i lo
  · obtain ⟨k, ⟨⟨k1, k2⟩, k3⟩, k4, k5, k6⟩ := q1 hlo
    have only : ∀ n, Admits cx p lo hi cs st i n → n = k := by
      intro n hn
      obtain ⟨n1, n2, n3, y, n4⟩ := hn
      have hle := k3 n ⟨n2, n3⟩
      by_cases hnk : n = k
      · exact hnk
      · exfalso
        have e2 : k = n + 1 + (k - n - 1) := by omega
        rw [e2] at k2
        have := (inClass_add.1 (inClass_add.1 k2).1).2
        exact restEnds_fails n4 (hdis (i + n) this)
    cases ha : a.accepted with
    | true =>
      obtain ⟨n, hn1, hn2⟩ := g1 ha
      have := only n hn1.1
      subst this
      cases hb : b.accepted with
      | true => exact ⟨rfl, fun _ => restEnds_unique hn2 (k5 hb)⟩
      | false => exact absurd hn2 (fun h => restEnds_fails h (k6 hb))
    | false =>
      have := g2 ha k k4 k1 k2
      cases hb : b.accepted with
      | true => exact absurd (k5 hb) (fun h => restEnds_fails h this)
      | false => exact ⟨rfl, by simp⟩
  · have hb := q2 hlo
    cases ha : a.accepted with
    | true =>
      obtain ⟨n, hn1, _⟩ := g1 ha
      exact absurd (inClass_mono hn1.1.2.2.1 hn1.1.1) hlo
    | false => exact ⟨by rw [hb], by simp⟩

-- a case of the two: `\d+x` and `\d+?x` on `12x`
example : SameRun (run (lit "12x") (.greedy (.range 48 57 []) 1 umax [.exact [120] []]) [] ⟨0, 0, [], true⟩)
      (run (lit "12x") (.possessive (.range 48 57 []) 1 umax [.exact [120] []]) [] ⟨0, 0, [], true⟩) ∧
    SameRun (run (lit "12x") (.lazy (.range 48 57 []) 1 umax [.exact [120] []]) [] ⟨0, 0, [], true⟩)
      (run (lit "12x") (.possessive (.range 48 57 []) 1 umax [.exact [120] []]) [] ⟨0, 0, [], true⟩) :=
  ⟨⟨⟨0, 3, [], true⟩, ⟨0, 3, [], true⟩, by decide +kernel, by decide +kernel, rfl, fun _ => rfl⟩,
   ⟨⟨0, 3, [], true⟩, ⟨0, 3, [], true⟩, by decide +kernel, by decide +kernel, rfl, fun _ => rfl⟩⟩

/-- Result (accepted?, start, end) of matching `s` with the tree as written and with the optimized tree. -/
def bothTrees (p s : String) : Option ((Bool × Int × Int) × (Bool × Int × Int)) :=
  match build (str p), compile (str p) with
  | some b, some t =>
    match construct (lit s) b 100, construct (lit s) t 100 with
    | .ok x, .ok y => some ((x.accepted, x.start, x.pos), (y.accepted, y.start, y.pos))
    | _, _ => none
  | _, _ => none

/-- **C14, refuted.** Only the first item of a class and the first alternative are looked at, and an element that may be empty hides
what follows it; the repetition becomes possessive and the match is lost: `\d+[a-z0-9]` on `12`, `(a*|b)a` on `aa`, `\w+[.a]` on
`ba`. -/
theorem C14_refuted : bothTrees "\\d+[a-z0-9]" "12" = some ((true, 0, 2), (false, 2, 2)) ∧
    bothTrees "(a*|b)a" "aa" = some ((true, 0, 2), (false, 2, 2)) ∧
    bothTrees "\\w+[.a]" "ba" = some ((true, 0, 2), (false, 2, 2)) := by decide +kernel
/-- **C14, refuted.** A failed possessive optional does not restore the position: the match found begins elsewhere. -/
theorem C14_refuted_start : bothTrees "a?b" "xaab" = some ((true, 2, 4), (true, 3, 4)) := by decide +kernel
/-- **C14, refuted.** A lazy repetition with nothing after it becomes possessive: the text matched changes. -/
theorem C14_refuted_text : bothTrees "a+?" "aaa" = some ((true, 0, 1), (true, 0, 3)) := by decide +kernel

end ERegex.Props

import Verif.Spec.Suite
import Verif.Proofs.SuiteWord
import Verif.Props.LeftmostWritten
import Verif.Props.Iterate
/-!
# C70 : the patterns of the project's tests, on every query
-/
set_option autoImplicit false
namespace ERegex.Props
open ERegex ERegex.Spec
open ERegex.Conformance (lit m)

/-- What a backtracking matcher reports: the pattern compiles; and in every query (of `char` values, shorter than 2^32-1, followed by a NUL byte) matching returns, reports the leftmost match, the
text that is preferred there and what every group has captured in it, and reports nothing only if nothing matches; and so does `next()` on every result, from its end on.
(The end of a query that is not empty is not tried as a start, see `C30_refuted_end`.) -/
def AsBacktracking (as : Alts) : Prop :=
  ∃ t, compile as.spell = some t ∧
    ∀ (cx : Ctx), (∀ c ∈ cx.query, c ∈ allChars) → cx.query.length < 4294967295 → cx.post.head? = some 0 → ∀ (fuel : Nat), cx.query.length ≤ fuel →
      (∃ st, construct cx t fuel = .ok st ∧
        (st.accepted = true → ∃ s w, Reports as st s w ∧ PreferredWay cx.query as 0 s w) ∧
        (st.accepted = false → ∀ x, (x = 0 ∨ x < cx.query.length) → as.ways cx.query 0 x noCaps = [])) ∧
      ∀ (st : St), Reach cx t st → ∀ f i : Nat, toView st = some ((f : Int), (i : Int)) →
        ∃ st', next cx t fuel st = .ok st' ∧
          (st'.accepted = true → ∃ s w, Reports as st' s w ∧ PreferredWay cx.query as i s w) ∧
          (st'.accepted = false → ∀ x, i ≤ x → x < cx.query.length → as.ways cx.query 0 x noCaps = [])

private theorem as_cap {as : Alts} (hr : as.capRegular = true) (hc : ∀ c ∈ as.spell, c ∈ allChars) : AsBacktracking as := by
  obtain ⟨t, ht, hcon⟩ := C49_captures_partial as hr hc
  obtain ⟨t', ht', hnext⟩ := C49_next_partial as hr hc
  rw [ht] at ht'; cases ht'
  exact ⟨t, ht, fun cx hq hlen hn fuel hf => ⟨hcon cx hq hlen (fun _ => hn) fuel hf, hnext cx hq hlen (fun _ => hn) fuel hf⟩⟩

private theorem as_nested {as : Alts} (hr : as.committed = true) (hre : as.retries = true) (hc : ∀ c ∈ as.spell, c ∈ allChars) : AsBacktracking as := by
  obtain ⟨t, ht, hcon⟩ := C49_nested_partial as hr hre hc
  obtain ⟨t', ht', hnext⟩ := C49_nested_next_partial as hr hre hc
  rw [ht] at ht'; cases ht'
  exact ⟨t, ht, fun cx hq hlen hn fuel hf => ⟨hcon cx hq hlen (fun _ => hn) fuel hf, hnext cx hq hlen (fun _ => hn) fuel hf⟩⟩

private def tested (x : String × Alts) : Bool :=
  decide (x.2.spell = str x.1) && x.2.spell.all (fun c => decide (c ∈ allChars)) && (x.2.capRegular || (x.2.committed && x.2.retries))

private theorem all_tested : suite.all tested = true := by decide +kernel

/-- **C70.** 42 of the patterns of the project's tests behave on every query like those of a backtracking matcher: not only on the strings they are
tested with.  (Four others do so by `C70_backtracking`, the IPv4 pattern by C69; two have escapes for several characters, `C70_escapes`; for the last four it is false, `C70_refuted`.) -/
theorem C70_suite : ∀ x ∈ suite, x.2.spell = str x.1 ∧ AsBacktracking x.2 := by
  intro x hx
  have h := List.all_eq_true.1 all_tested x hx
  simp only [tested, Bool.and_eq_true, Bool.or_eq_true, decide_eq_true_eq, List.all_eq_true] at h
  refine ⟨h.1.1, ?_⟩
  rcases h.2 with h' | h'
  · exact as_cap h' h.1.2
  · exact as_nested h'.1 h'.2 h.1.2

example : suite.length = 42 ∧ (suite.map Prod.fst).contains "(\\d+)-(\\d+)-(\\d+)" = true := by decide

/-- Attempts that decide what the pattern prefers. -/
theorem as_attempts {as : Alts} {t : Node} (hfl : flats as = true) (ht : compile as.spell = some t)
    (ha : ∀ cx : Ctx, cx.query.length < 4294967295 → AttemptsG cx t (fun x => as.picks cx.query x ≠ []) (fun s st => (as.picks cx.query s).head? = some (off st))) :
    AsBacktracking as := by
  refine ⟨t, ht, fun cx hq hlen hn fuel hfuel => ?_⟩
  have ha := ha cx hlen
  have hw : ∀ x, as.ways cx.query 0 x noCaps = (as.picks cx.query x).map (fun e => (e, noCaps)) := fun x => (alts_ways as hfl _ _ _ _).1
  have h0 : as.count = 0 := (alts_ways as hfl cx.query 0 0 noCaps).2
  have hnil : ∀ x, ¬ (as.picks cx.query x ≠ []) → as.ways cx.query 0 x noCaps = [] := by
    intro x h
    rw [hw, Classical.not_not.1 h]; rfl
  have hrep : ∀ (st : St) (s frm : Nat), st.accepted = true → st.start = s → 0 ≤ st.pos → frm ≤ s → (as.picks cx.query s).head? = some (off st) →
      (∀ x, frm ≤ x → as.picks cx.query x ≠ [] → s ≤ x) → ∃ s w, Reports as st s w ∧ PreferredWay cx.query as frm s w := by
    intro st s frm hacc hs hp hf hh hmin
    refine ⟨s, (off st, noCaps), ⟨?_, fun n hn => by omega⟩, hf, ?_, fun x h1 h2 => hnil x (fun h => ?_)⟩
    · have : st.pos = ((off st : Nat) : Int) := by unfold off; omega
      simp [getGroup, toView, hacc, hs, ← this]
    · rw [hw, List.head?_map, hh]; rfl
    · have := hmin x h1 h; omega
  refine ⟨?_, fun st hr f i hv => ?_⟩
  · rcases construct_good ha.good fuel with ⟨st, e1, hi⟩ | ⟨_, h2⟩
    · have hl := construct_left ha e1
      refine ⟨st, e1, fun hacc => ?_, fun hrej x hx => hnil x (hl.miss hrej x hx)⟩
      obtain ⟨s, s1, s2, s4, s5⟩ := hl.hit hacc
      exact hrep st s 0 hacc s1 (inv_pos (reach_inv ha.good (.make e1))).1 (Nat.zero_le _) s4 (fun x _ => s5 x)
    · simp only [Ctx.qend] at h2; omega
  · have hacc := view_eq hv
    have hpos : st.pos = i := by
      simp only [toView, hacc, if_true, Option.some.injEq, Prod.mk.injEq] at hv; exact hv.2
    have hb2 := inv_pos (reach_inv ha.good hr)
    rcases next_good ha.good fuel st hb2.1 hb2.2 with ⟨st', f1, hi⟩ | ⟨_, h2⟩
    · have hl := next_left ha hb2.1 f1
      have hoff : off st = i := by unfold off; omega
      rw [hoff] at hl
      refine ⟨st', f1, fun hacc => ?_, fun hrej x h1 h2 => hnil x (hl.miss hrej x h1 h2)⟩
      obtain ⟨s, s1, s2, s3, s4, s5⟩ := hl.hit hacc
      exact hrep st' s i hacc s1 (inv_pos (reach_inv ha.good (.next hr f1))).1 s2 s4 s5
    · simp only [Ctx.qend] at h2; omega

private theorem back_spell : ∀ x ∈ suiteBack, x.2.spell = str x.1 := by decide +kernel

/-- **C70.** The tests in which an optional part can begin with the character that follows it, `a?a`, `a??a`, `a?+a` and `\d*\w+abcd`: they behave on every query like those of a
backtracking matcher, too. -/
theorem C70_backtracking : ∀ x ∈ suiteBack, x.2.spell = str x.1 ∧ AsBacktracking x.2 := by
  intro x hx
  refine ⟨back_spell x hx, ?_⟩
  simp only [suiteBack, List.mem_cons, List.mem_nil_iff, or_false] at hx
  rcases hx with rfl | rfl | rfl | rfl
  · exact as_attempts (t := .greedy aN 0 1 [aN]) (by decide) (by decide +kernel) (fun cx _ => optGreedy_attempts cx)
  · exact as_attempts (t := .lazy aN 0 1 [aN]) (by decide) (by decide +kernel) (fun cx _ => optLazy_attempts cx)
  · exact as_attempts (t := .possessive aN 0 1 [aN]) (by decide) (by decide +kernel) (fun cx _ => optPossessive_attempts cx)
  · exact as_attempts (t := digitsN) (by decide) (by decide +kernel) (fun cx h => digits_attempts cx h)

example : m "\\d*\\w+abcd" "!12abcd" = some [some "12abcd"] ∧ m "a?a" "xa" = some [some "a"] ∧ m "a?a" "xaa" = some [some "aa"] ∧ m "a??a" "xaa" = some [some "a"] ∧
    m "a?+a" "xa" = none := by decide +kernel

/-- The tests with escapes for several characters. -/
private def others : List String := ["a\\o{101101101}", "a\\x{414141}"]

private theorem others_ok : others.all (fun p => match build (str p), compile (str p) with | some _, some t => findsTree true true t | _, _ => false) = true := by
  decide +kernel

/-- **C70.** Those with escapes for several characters: the leftmost match is found in every query (and only one text fits there). -/
theorem C70_escapes : ∀ p ∈ ["a\\o{101101101}", "a\\x{414141}"], ∃ b, build (str p) = some b ∧ FindsLeftmost (str p) (toRx b) true := by
  intro p hp
  have h := List.all_eq_true.1 others_ok p hp
  cases hb : build (str p) with
  | none => simp [hb] at h
  | some b =>
    cases ht : compile (str p) with
    | none => simp [hb, ht] at h
    | some t =>
      rw [hb, ht] at h
      refine ⟨b, rfl, t, ht, fun cx hq hlen hn fuel hf => ⟨?_, fun st hr f i hv => ?_⟩⟩
      · exact C30_leftmost_partial _ b t hb ht true true h cx (fun _ => hn rfl) (fun h => by cases h) hlen fuel hf
      · exact C30_next_partial _ b t hb ht true true h cx (fun _ => hn rfl) (fun h => by cases h) hlen fuel hf st hr f i hv

/-- **C70, refuted.** Four of them overlook matches in other queries. -/
theorem C70_refuted : MissesLeftmost "[a-d]?z" "xaaz" 2 ∧ MissesLeftmost "\\s+" "xx y" 2 ∧ MissesLeftmost "\\d+\\s+123" " 3x1 123" 3 ∧
    MissesLeftmost "[0-9]++\\s++123" " 3x1 123" 3 :=
  ⟨missesLeftmost_of (by decide +kernel), missesLeftmost_of (by decide +kernel), missesLeftmost_of (by decide +kernel), missesLeftmost_of (by decide +kernel)⟩

end ERegex.Props

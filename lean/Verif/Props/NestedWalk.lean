import Verif.Props.NestedMore
import Verif.Props.Endless
/-!
# C33 and C50 for patterns with groups nested to any depth that may match the empty text
-/
set_option autoImplicit false
namespace ERegex.Props
open ERegex ERegex.Spec
open ERegex.Conformance (lit m)

theorem nested_finder (as : Alts) (hr : as.committed = true) (hre : as.retries = true) (hc : ∀ c ∈ as.spell, c ∈ allChars) :
    ∃ t, compile as.spell = some t ∧ ∀ (cx : Ctx), (∀ c ∈ cx.query, c ∈ allChars) → cx.query.length < 4294967295 →
      (as.dollars = true → cx.post.head? = some 0) → ∀ (fuel : Nat), cx.query.length ≤ fuel → Finder cx t fuel (bestEnd as cx.query) := by
  obtain ⟨t, ht, hcon⟩ := C49_nested_partial as hr hre hc
  obtain ⟨t', ht', hnext⟩ := C49_nested_next_partial as hr hre hc
  rw [ht] at ht'; cases ht'
  have hnone : ∀ {q : List Int} {x : Nat}, as.ways q 0 x noCaps = [] → bestEnd as q x = none := fun h => by simp [bestEnd, bestWay, h]
  refine ⟨t, ht, fun cx hq hlen hd fuel hfuel => ⟨?_, fun st hst a i hv => ?_⟩⟩
  · obtain ⟨st, e1, e2, e3⟩ := hcon cx hq hlen hd fuel hfuel
    refine ⟨st, e1, fun ha => ?_, fun ha x hx => hnone (e3 ha x hx)⟩
    obtain ⟨s, w, g1, _, g2, g3⟩ := e2 ha
    refine ⟨s, w.1, by have := g1.1; simpa [getGroup] using this, by simp [bestEnd, bestWay, g2], fun x hx => hnone (g3 x (Nat.zero_le _) hx)⟩
  · obtain ⟨st', e1, e2, e3⟩ := hnext cx hq hlen hd fuel hfuel st hst a i hv
    refine ⟨st', e1, fun ha => ?_, fun ha x h1 h2 => hnone (e3 ha x h1 h2)⟩
    obtain ⟨s, w, g1, g0, g2, g3⟩ := e2 ha
    exact ⟨s, w.1, by have := g1.1; simpa [getGroup] using this, g0, by simp [bestEnd, bestWay, g2], fun x h1 h2 => hnone (g3 x h1 h2)⟩

theorem bestEnd_within {as : Alts} {q : List Int} {s e : Nat} (hs : s < q.length) (h : bestEnd as q s = some e) : s ≤ e ∧ e ≤ q.length := by
  unfold bestEnd bestWay at h
  cases hw : (as.ways q 0 s noCaps).head? with
  | none => rw [hw] at h; cases h
  | some w =>
    rw [hw] at h
    have hwe : w.1 = e := by simpa using h
    subst hwe
    have := alts_ends q as 0 s noCaps (Nat.le_of_lt hs) w (List.mem_of_mem_head? hw)
    exact ⟨this.1, this.2.1⟩

/-- **C50 (partial), with empty matches, nested groups.** For every committed pattern in which a failed attempt cannot hide the next match, and every non-empty query: the first `n` steps of a
range-for visit exactly the first `n` matches of the walk from match to match, and it ends exactly when there are no more. -/
theorem C50_nested_walk_partial (as : Alts) (hr : as.committed = true) (hre : as.retries = true) (hc : ∀ c ∈ as.spell, c ∈ allChars) :
    ∃ t, compile as.spell = some t ∧ ∀ (cx : Ctx), (∀ c ∈ cx.query, c ∈ allChars) → cx.query.length < 4294967295 →
      (as.dollars = true → cx.post.head? = some 0) → cx.query ≠ [] → ∀ (fuel : Nat), cx.query.length ≤ fuel → ∀ n r,
        ∃ l b, Walk (bestEnd as cx.query) cx.query.length n 0 l b ∧ rangeFor cx t fuel n r = some (l.map span, b) := by
  obtain ⟨t, ht, h⟩ := nested_finder as hr hre hc
  exact ⟨t, ht, fun cx hq hlen hd hne fuel hf n r => (h cx hq hlen hd fuel hf).range hne n r⟩

/-- **C33, exactly when it ends (partial), nested groups.** For every committed pattern in which a failed attempt cannot hide the next match, and every query: a range-for over the matches ends if
and only if the query is empty or none of the matches it comes to is empty.  Missing: the other patterns. -/
theorem C33_nested_iff_partial (as : Alts) (hr : as.committed = true) (hre : as.retries = true) (hc : ∀ c ∈ as.spell, c ∈ allChars) :
    ∃ t, compile as.spell = some t ∧ ∀ (cx : Ctx), (∀ c ∈ cx.query, c ∈ allChars) → cx.query.length < 4294967295 →
      (as.dollars = true → cx.post.head? = some 0) → ∀ (fuel : Nat), cx.query.length ≤ fuel → ∀ r,
        (∃ n l, rangeFor cx t fuel n r = some (l, true)) ↔ (cx.query = [] ∨ AllTake (bestEnd as cx.query) cx.query.length 0) := by
  obtain ⟨t, ht, h⟩ := nested_finder as hr hre hc
  refine ⟨t, ht, fun cx hq hlen hd fuel hf r => ?_⟩
  by_cases he : cx.query = []
  · obtain ⟨l, hl⟩ := (h cx hq hlen hd fuel hf).empty he r
    exact ⟨fun _ => Or.inl he, fun _ => ⟨1, l, hl⟩⟩
  · rw [(h cx hq hlen hd fuel hf).ends he (fun s e h1 h2 => bestEnd_within h1 h2) r]
    exact ⟨Or.inr, fun g => g.resolve_left he⟩

/-! ## the hypotheses are met -/

private def x : Atom := .chr 120
private def digit : Atom := .esc 100
/-- `(x(\d+))*`: nothing is a match too. -/
def manyPattern : Alts :=
  .last false (.cons (.group true (.last false (.cons x .once (.cons (.group true (.last false (.cons digit (.plus .greedy) (.nil false)))) .once (.nil false))))) (.star .greedy) (.nil false))
example : manyPattern.committed = true ∧ manyPattern.retries = true ∧ manyPattern.feeds = false ∧ manyPattern.spell = str "(x(\\d+))*" ∧ (∀ c ∈ manyPattern.spell, c ∈ allChars) ∧
    (compile (str "(x(\\d+))*")).bind (fun t => rangeFor (lit "x1x22") t 9 9 (initSt t)) = some ([some (0, 5)], true) ∧
    (compile (str "(x(\\d+))*")).bind (fun t => rangeFor (lit "x1.") t 9 4 (initSt t)) = some ([some (0, 2), some (2, 2), some (2, 2), some (2, 2)], false) := by decide +kernel

end ERegex.Props

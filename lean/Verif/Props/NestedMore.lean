import Verif.Proofs.WaysGroups
import Verif.Props.Nested
import Verif.Props.FindGroups
import Verif.Props.Place
import Verif.Props.Texts
/-!
# C11, C50, C55, C60 and C67 for patterns with groups nested to any depth
-/
set_option autoImplicit false
namespace ERegex.Props
open ERegex ERegex.Spec
open ERegex.Conformance (lit m)

/-! ## the condition -/

mutual
theorem plainly_fair_atom : ∀ (a : Atom), a.plainly = true → a.fair = true
  | .group _ as, h => by
    simp only [Atom.plainly, Bool.and_eq_true] at h
    exact plainly_fair as h.2
  | .chr _, _ | .esc _, _ | .dot, _ | .hex .., _ | .oct .., _ | .cls .., _ => rfl
theorem plainly_fair_sq : ∀ (s : Sq), s.plainly = true → s.fair = true
  | .nil _, _ => rfl
  | .cons a k s, h => by
    simp only [Sq.plainly, Bool.and_eq_true] at h
    simp only [Sq.fair, Bool.and_eq_true]
    exact ⟨⟨plainly_fair_atom a h.1.1.1.1, sane_fair h.1.1.1.2⟩, plainly_fair_sq s h.2⟩
theorem plainly_fair : ∀ (as : Alts), as.plainly = true → as.fair = true
  | .last _ s, h => by
    simp only [Alts.plainly, Bool.and_eq_true] at h
    exact plainly_fair_sq s h.2
  | .more _ s as, h => by
    simp only [Alts.plainly, Bool.and_eq_true] at h
    simp only [Alts.fair, Bool.and_eq_true]
    exact ⟨plainly_fair_sq s h.1.1.1.2, plainly_fair as h.2⟩
end

mutual
theorem floats_none_atom : ∀ (a : Atom), a.sem.floats = true → a.dollars = false
  | .group _ as, h => floats_none as h
  | .chr _, _ | .esc _, _ | .dot, _ | .hex .., _ | .oct .., _ | .cls .., _ => rfl
theorem floats_none_sq : ∀ (s : Sq), s.sem.floats = true → s.dollars = false
  | .nil d, h => by cases d <;> simp [Sq.sem, Rx.floats, Sq.dollars] at h ⊢
  | .cons a k s, h => by
    simp only [Sq.sem, Rx.floats, Bool.and_eq_true] at h
    simp only [Sq.dollars, Bool.or_eq_false_iff]
    exact ⟨floats_none_atom a (by have := h.1; cases k <;> simpa [Quant.sem, Rx.floats] using this), floats_none_sq s h.2⟩
theorem floats_none : ∀ (as : Alts), as.sem.floats = true → as.dollars = false
  | .last hat s, h => by
    cases hat
    · exact floats_none_sq s h
    · simp [Alts.sem, Rx.floats] at h
  | .more hat s as, h => by
    simp only [Alts.sem, Rx.floats, Bool.and_eq_true] at h
    simp only [Alts.dollars, Bool.or_eq_false_iff]
    refine ⟨?_, floats_none as h.2⟩
    cases hat
    · exact floats_none_sq s h.1
    · simp [Rx.floats] at h
end

/-! ## C11 -/

/-- **C49, sanity of the specification.** In every way to match a pattern, with groups nested to any depth, what the `n`-th group (by opening parentheses) has captured is a match of its
content. -/
theorem C49_captures_are_matches (as : Alts) (hf : as.fair = true) (q : List Int) (i : Nat) (w : Way) (hw : w ∈ as.ways q 0 i noCaps) (n : Nat) (content : Alts)
    (hb : as.groups[n]? = some content) (a b : Nat) (hx : w.2 n = some (a, b)) : Den q content.sem a b := ways_caught q as hf hw hb hx

/-- **C11 (partial), nested groups.** For every committed pattern, with groups nested to any depth, in every accepted result a program can obtain, `result[n + 1]` is empty or a part of the query
that the content of the `n`-th capturing group of the pattern, counted by opening parentheses, matches; and it is not empty if every group takes part in every match.  Missing: the other patterns. -/
theorem C11_nested_partial (as : Alts) (hr : as.committed = true) (hc : ∀ c ∈ as.spell, c ∈ allChars) :
    as.groups.length = as.count ∧ ∃ t, compile as.spell = some t ∧
      ∀ (cx : Ctx), (∀ c ∈ cx.query, c ∈ allChars) → cx.query.length < 4294967295 → (as.dollars = true → cx.post.head? = some 0) →
        ∀ st, Reach cx t st → st.accepted = true → ∀ (n : Nat) (content : Alts), as.groups[n]? = some content →
          ((as.forced = false ∧ getGroup st (n + 1) = some none) ∨
            ∃ a b : Nat, getGroup st (n + 1) = some (some ((a : Int), (b : Int))) ∧ Den cx.query content.sem a b) := by
  refine ⟨alts_groups_count as, ?_⟩
  obtain ⟨h1, h2, h3, h4, h5⟩ := committed_facts hr
  obtain ⟨t, ht, hown⟩ := C49_nested_own_start_partial as hr hc
  refine ⟨t, ht, fun cx hq hlen hn st hreach hacc n content hg => ?_⟩
  obtain ⟨s, w, ⟨h6, h7⟩, h8⟩ := (hown cx hq hlen hn).1 st hreach hacc
  have hlt : n < as.count := by
    rw [← alts_groups_count as]
    rcases Nat.lt_or_ge n as.groups.length with h | h
    · exact h
    · rw [List.getElem?_eq_none h] at hg; cases hg
  have hw := List.mem_of_mem_head? h8
  cases hx : w.2 n with
  | some x =>
    right
    exact ⟨x.1, x.2, by rw [h7 n hlt, hx]; rfl, ways_caught cx.query as (plainly_fair as h2) hw hg hx⟩
  | none =>
    left
    refine ⟨?_, by rw [h7 n hlt, hx]; rfl⟩
    cases hf : as.forced with
    | false => rfl
    | true =>
      exfalso
      by_cases hle : s ≤ cx.query.length
      · rw [committed_head hq h4 hle] at h8
        exact alts_forced cx.query as 0 hf (s, fun _ => none) w h8 n (Nat.zero_le _) (by omega) hx
      · obtain ⟨t', ms, ht', hrow, hj, hst⟩ := committed_compile as hr hc
        rw [ht] at ht'; cases ht'
        have hi := reach_inv (fit_safe hrow hj hst hn).1 hreach
        have hv : toView st = some ((s : Int), (w.1 : Int)) := by simpa [getGroup] using h6
        have g5 := hi.acc hacc
        have g6 := hi.start
        simp only [toView, hacc, if_true, Option.some.injEq, Prod.mk.injEq] at hv
        unfold Ctx.qend at g5
        omega

/-! ## C50, C55, C60, C67 -/

/-- A result begins inside the query. -/
theorem committed_inside {as : Alts} (hr : as.committed = true) (hc : ∀ c ∈ as.spell, c ∈ allChars) {t : Node} (ht : compile as.spell = some t) {cx : Ctx}
    (hn : as.dollars = true → cx.post.head? = some 0) {st : St} (h : Reach cx t st) {s : Nat} {w : Way} (hrep : Reports as st s w) : s ≤ cx.query.length := by
  obtain ⟨t', ms, ht', hrow, hj, hst⟩ := committed_compile as hr hc
  rw [ht] at ht'; cases ht'
  have hi := reach_inv (fit_safe hrow hj hst hn).1 h
  have hv : toView st = some ((s : Int), (w.1 : Int)) := by
    have := hrep.1
    simpa [getGroup] using this
  have ha := view_eq hv
  have h5 := hi.acc ha
  have h6 := hi.start
  simp only [toView, ha, if_true, Option.some.injEq, Prod.mk.injEq] at hv
  unfold Ctx.qend at h5
  omega

/-- **C50 (partial), nested groups.** For every committed pattern in which a failed attempt cannot hide the next match and which must take a character: matching, `next()` and a range-for report the
matches that a backtracking matcher prefers, from left to right, without overlap, none left out, and every group, at any depth, of every one of them is what it captured in that match. -/
theorem C50_nested_partial (as : Alts) (hr : as.committed = true) (hre : as.retries = true) (hc : ∀ c ∈ as.spell, c ∈ allChars) (he : as.feeds = true) :
    FindsGroups as.spell as.count as.dollars (bestWay as) := by
  obtain ⟨t, ht, hcon⟩ := C49_nested_partial as hr hre hc
  obtain ⟨t', ht', hnext⟩ := C49_nested_next_partial as hr hre hc
  rw [ht] at ht'; cases ht'
  refine finds_groups ht hcon hnext (fun cx hq hlen hd st h s w g => committed_inside hr hc ht hd h g) (fun q i w hi hw => ?_)
  have := alts_ends q as 0 i noCaps hi w hw
  exact ⟨this.2.2 he, this.2.1⟩

/-- **C55 (partial), nested groups.** `^s` (or `^s$`) accepts if and only if there is a way to match from the beginning, and then reports the captures of the best one. -/
theorem C55_nested_partial (s : Sq) (hr : (Alts.last true s).committed = true) (hc : ∀ c ∈ (Alts.last true s).spell, c ∈ allChars) :
    ∃ t, compile (Alts.last true s).spell = some t ∧
      ∀ (cx : Ctx), (∀ c ∈ cx.query, c ∈ allChars) → cx.query.length < 4294967295 → (s.dollars = true → cx.post.head? = some 0) →
        ∀ (fuel : Nat), cx.query.length ≤ fuel → ∃ st, construct cx t fuel = .ok st ∧
          match (s.ways cx.query 0 0 noCaps).head? with
          | none => st.accepted = false
          | some w => st.accepted = true ∧ Reports (.last true s) st 0 w := by
  obtain ⟨t, ht, h⟩ := C49_nested_partial (.last true s) hr (by simp [Alts.retries, Alts.atFront]) hc
  refine ⟨t, ht, fun cx hq hlen hn fuel hfuel => ?_⟩
  obtain ⟨st, e1, e2, e3⟩ := h cx hq hlen hn fuel hfuel
  refine ⟨st, e1, ?_⟩
  have h0 : (Alts.last true s).ways cx.query 0 0 noCaps = s.ways cx.query 0 0 noCaps := by simp [Alts.ways]
  rw [← h0]
  cases ha : st.accepted with
  | true =>
    obtain ⟨x, w, h1, _, h3, _⟩ := e2 ha
    have : x = 0 := by
      simp only [Alts.ways] at h3
      split at h3
      · simp at h3
      · rename_i hx; simpa using hx
    subst this
    rw [h3]
    exact ⟨rfl, h1⟩
  | false =>
    rw [e3 ha 0 (Or.inl rfl)]
    rfl

/-- **C60 (partial), nested groups.** For every committed pattern without anchors and possessive quantifiers in which a failed attempt cannot hide the next match: matching succeeds if and only if
the query contains a text of the pattern, and then reports the leftmost one. -/
theorem C60_nested_partial (as : Alts) (hr : as.committed = true) (hre : as.retries = true) (hfl : as.floats = true) (hy : as.yields = true) (hc : ∀ c ∈ as.spell, c ∈ allChars) :
    ∃ t, compile as.spell = some t ∧ ∀ (cx : Ctx), (∀ c ∈ cx.query, c ∈ allChars) → cx.query.length < 4294967295 →
      ∀ (fuel : Nat), cx.query.length ≤ fuel → ∃ st, construct cx t fuel = .ok st ∧ (st.accepted = true ↔ Contains cx.query as) ∧
        (st.accepted = true → ShowsLeftmost cx as st) := by
  obtain ⟨t, ht, hall⟩ := C49_nested_partial as hr hre hc
  exact ⟨t, ht, texts_of (plainly_fair as (committed_facts hr).2.1) hfl hy
    (fun cx hq hlen fuel hfuel => hall cx hq hlen (by rw [floats_none as hfl]; simp) fuel hfuel)⟩

/-- **C67 (partial), nested groups.** For every committed pattern without `^` in which a failed attempt cannot hide the next match: `next()` finds what matching the rest of the query finds, the
same text at the same place, with the same groups at every depth. -/
theorem C67_nested_partial (as : Alts) (hr : as.committed = true) (hre : as.retries = true) (hh : as.hatless = true) (hc : ∀ c ∈ as.spell, c ∈ allChars) :
    ∃ t, compile as.spell = some t ∧
      ∀ (cx cx' : Ctx), (∀ c ∈ cx.query, c ∈ allChars) → cx.query.length < 4294967295 →
        (as.dollars = true → cx.post.head? = some 0 ∧ cx'.post.head? = some 0) →
        ∀ (fuel : Nat), cx.query.length ≤ fuel → ∀ (st : St), Reach cx t st → ∀ f e : Nat, toView st = some ((f : Int), (e : Int)) →
          e < cx.query.length → cx'.query = cx.query.drop e →
          ∃ a b, next cx t fuel st = .ok a ∧ construct cx' t fuel = .ok b ∧ Moved e as a b := by
  obtain ⟨t, ht, hall⟩ := nested_from as hr hre hc
  obtain ⟨t', ht', hcon⟩ := C49_nested_partial as hr hre hc
  rw [ht] at ht'; cases ht'
  exact ⟨t, ht, rest_of ht (committed_facts hr).1 hh hall hcon⟩

/-! ## the hypotheses are met -/

example : [bindingPattern, runPattern, deepPattern, listPattern].all (fun as => as.committed && as.retries && as.feeds && as.floats && as.yields && as.hatless && !as.dollars) = true := by
  decide +kernel
example : bindingPattern.groups.map Alts.spell = [str "(\\w+)=(\\d+)", str "\\w+", str "\\d+"] ∧ bindingPattern.forced = true ∧ deepPattern.forced = false := by decide +kernel
example : m "((\\w+)=(\\d+))" "a=1, b=2" 1 = some [some "b=2", some "b=2", some "b", some "2"] ∧ m "(x(\\d+))+" "x1x23 x4" 1 = some [some "x4", some "x4", some "4"] := by decide +kernel

private def word : Atom := .esc 119
private def digit : Atom := .esc 100
/-- `^((\w+):(\d+))` -/
def portBody : Sq :=
  .cons (.group true (.last false (.cons (.group true (.last false (.cons word (.plus .greedy) (.nil false)))) .once (.cons (.chr 58) .once
    (.cons (.group true (.last false (.cons digit (.plus .greedy) (.nil false)))) .once (.nil false)))))) .once (.nil false)
example : (Alts.last true portBody).committed = true ∧ (Alts.last true portBody).retries = true ∧ (Alts.last true portBody).spell = str "^((\\w+):(\\d+))" ∧ (∀ c ∈ (Alts.last true portBody).spell, c ∈ allChars) ∧
    m "^((\\w+):(\\d+))" "host:80/x" = some [some "host:80", some "host:80", some "host", some "80"] ∧ m "^((\\w+):(\\d+))" " host:80" = none := by decide +kernel
end ERegex.Props

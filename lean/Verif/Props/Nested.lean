import Verif.Proofs.CommitSearch
import Verif.Proofs.CommitHard
import Verif.Props.Capture
/-!
# C49 for patterns with groups nested to any depth

`Alts.committed` (Spec/Commit.lean) is a condition on the pattern as written.  It allows groups inside groups inside repetitions, with any mix of
quantifiers and alternatives, as long as no choice has to be undone.
-/
set_option autoImplicit false
namespace ERegex.Props
open ERegex ERegex.Spec
open ERegex.Conformance (lit m)

/-- The compiled tree of a committed pattern. -/
theorem committed_compile (as : Alts) (h : as.committed = true) (hc : ∀ c ∈ as.spell, c ∈ allChars) :
    ∃ t ms, compile as.spell = some t ∧ as.Row true 0 ms ∧ Joined ms t ∧ strict t = true := by
  have h' := h
  simp only [Alts.committed, Bool.and_eq_true, decide_eq_true_eq] at h'
  obtain ⟨⟨⟨⟨⟨⟨h1, h2⟩, h3⟩, _⟩, _⟩, h6⟩, h7⟩ := h'
  obtain ⟨t, ms, ht, hrow, hj⟩ := committed_fit h1 h2 hc h7 h3 h6
  exact ⟨t, ms, ht, hrow, hj, by rw [joined_strict hj]; exact row_strict as 0 ms hrow⟩

/-- **C49 (partial), nested groups.** Without the condition on failed attempts (the search may then skip a match): every accepted result a program can obtain reports the best of the ways to match
that begin where the result begins, with all its captures; and if the pattern can match from the start of the query on, matching reports the best of these. -/
theorem C49_nested_own_start_partial (as : Alts) (hr : as.committed = true) (hc : ∀ c ∈ as.spell, c ∈ allChars) :
    ∃ t, compile as.spell = some t ∧
      ∀ (cx : Ctx), (∀ c ∈ cx.query, c ∈ allChars) → cx.query.length < 4294967295 → (as.dollars = true → cx.post.head? = some 0) →
        (∀ st, Reach cx t st → st.accepted = true → ∃ s w, Reports as st s w ∧ (as.ways cx.query 0 s noCaps).head? = some w) ∧
        (∀ w, (as.ways cx.query 0 0 noCaps).head? = some w → ∀ (fuel : Nat), cx.query.length ≤ fuel →
          ∃ st, construct cx t fuel = .ok st ∧ Reports as st 0 w) := by
  obtain ⟨t, ms, ht, hrow, hj, hst⟩ := committed_compile as hr hc
  refine ⟨t, ht, fun cx hq hlen hn => ?_⟩
  have hs := (fit_safe hrow hj hst hn).1
  have own : ∀ L s st st', 0 ≤ L → L ≤ s → Good cx ⟨L, s, groupsOf t, fun _ _ _ => True⟩ st → Carries as (off st) st.groups → run cx t [] st = some st' →
      (st'.accepted = true → Told cx.query as (off st) st') ∧ (st'.accepted = false → ∀ x, off st < x → Carries as x st'.groups) :=
    fun L s st st' hL hs hg hb e => (committed_own hr hrow hj hst hlen hq hn hL hs hg hb e).2
  have hI : ∀ x, Carries as x (List.replicate (groupsOf t) (none : Option (Int × Int))) := fun x => .inr (.inl (fun v hv => List.eq_of_mem_replicate hv))
  refine ⟨fun st hreach hacc => ?_, fun w hw fuel hfuel => ?_⟩
  · cases hreach with
    | make e =>
      obtain ⟨b, hb, hr⟩ := (construct_own hs (I := Carries as) own hI e).1 hacc
      obtain ⟨w, w1, w2⟩ := told_reports hr hacc hb
      exact ⟨b, w, w2, w1⟩
    | next hreach e =>
      obtain ⟨b, hb, _, hr⟩ := next_own hs (I := Carries as) own hI (inv_pos (reach_inv hs hreach)).1 e hacc
      obtain ⟨w, w1, w2⟩ := told_reports hr hacc hb
      exact ⟨b, w, w2, w1⟩
  · rcases construct_good hs fuel with ⟨st, e1, hi⟩ | ⟨_, h2⟩
    · obtain ⟨_, st1, e2, heq⟩ := construct_own hs (I := Carries as) own hI e1
      have hg : Good cx ⟨0, 0, groupsOf t, fun _ _ _ => True⟩ (initSt t) :=
        ⟨rfl, ⟨by simp, by simp⟩, ⟨by simp [initSt], by simp [initSt, Ctx.qend]⟩, by simp [initSt], replicate_views cx _ _, fun _ _ _ _ => trivial⟩
      obtain ⟨y1, y2, _⟩ := committed_own hr hrow hj hst hlen hq hn (by omega) (by omega) hg (hI _) e2
      have hacc : st1.accepted = true := y1.2 (by
        intro h
        have h' : as.ways cx.query 0 0 noCaps = [] := h
        rw [h'] at hw; cases hw)
      obtain ⟨rfl, h0⟩ := heq hacc
      obtain ⟨w', w1, w2⟩ := told_reports (y2 hacc) hacc h0
      have hw' : (as.ways cx.query 0 0 noCaps).head? = some w' := w1
      rw [hw] at hw'
      cases hw'
      exact ⟨st, e1, w2⟩
    · simp only [Ctx.qend] at h2; omega

/-- **C49 (partial), nested groups.** Every committed pattern compiles, whatever the depth of its groups, and if moreover a failed attempt cannot hide the next match (`retries`) then matching it
against any query reports what a backtracking matcher reports: the leftmost start and, there, the end and the captures of the best way; if the result is not accepted there is no match that begins
at 0 or before the end of the query.  Missing: the patterns in which a choice has to be undone (for those without nested groups see `C49_captures_partial`), and those for which it is false. -/
theorem C49_nested_partial (as : Alts) (hr : as.committed = true) (hre : as.retries = true) (hc : ∀ c ∈ as.spell, c ∈ allChars) :
    ∃ t, compile as.spell = some t ∧
      ∀ (cx : Ctx), (∀ c ∈ cx.query, c ∈ allChars) → cx.query.length < 4294967295 → (as.dollars = true → cx.post.head? = some 0) →
        ∀ (fuel : Nat), cx.query.length ≤ fuel → ∃ st, construct cx t fuel = .ok st ∧
          (st.accepted = true → ∃ s w, Reports as st s w ∧ PreferredWay cx.query as 0 s w) ∧
          (st.accepted = false → ∀ x, (x = 0 ∨ x < cx.query.length) → as.ways cx.query 0 x noCaps = []) := by
  have hfront : as.atFront = true ∨ (as.atFront = false ∧ as.resumes = true) := by
    simp only [Alts.retries, Bool.or_eq_true] at hre
    cases h : as.atFront with
    | true => exact .inl rfl
    | false => rw [h] at hre; exact .inr ⟨rfl, by simpa using hre⟩
  rcases hfront with hfr | ⟨hnf, hre⟩
  · obtain ⟨t, ht, hown⟩ := C49_nested_own_start_partial as hr hc
    refine ⟨t, ht, fun cx hq hlen hn fuel hfuel => ?_⟩
    obtain ⟨h1, h2⟩ := hown cx hq hlen hn
    obtain ⟨t', ms, ht', hrow, hj, hst⟩ := committed_compile as hr hc
    rw [ht] at ht'; cases ht'
    rcases construct_good (fit_safe hrow hj hst hn).1 fuel with ⟨st, e1, hi⟩ | ⟨_, h2⟩
    · refine ⟨st, e1, fun hacc => ?_, fun hrej x hx => ?_⟩
      · obtain ⟨s, w, w1, w2⟩ := h1 st (.make e1) hacc
        have hs : s = 0 := Classical.byContradiction (fun h => by rw [front_only hfr h] at w2; cases w2)
        subst hs
        exact ⟨0, w, w1, Nat.le_refl _, w2, fun x _ hx => (by omega)⟩
      · rcases Nat.eq_zero_or_pos x with rfl | hx0
        · cases hw : as.ways cx.query 0 0 noCaps with
          | nil => rfl
          | cons w l =>
            obtain ⟨st', e2, h3⟩ := h2 w (by rw [hw]; rfl) fuel hfuel
            rw [e1] at e2; cases e2
            have := h3.1
            simp [getGroup, toView, hrej] at this
        · exact front_only hfr (by omega)
    · simp only [Ctx.qend] at h2; omega
  obtain ⟨t, ms, ht, hrow, hj, hst⟩ := committed_compile as hr hc
  refine ⟨t, ht, fun cx hq hlen hn fuel hfuel => ?_⟩
  have hsafe := (fit_safe hrow hj hst hn).1
  have ha := committed_search hr hnf hre hrow hj hst hlen hq hn
  rcases construct_good hsafe fuel with ⟨st, e1, hi⟩ | ⟨_, h2⟩
  · have hl : LeftMostG cx (fun i => as.ways cx.query 0 i (fun _ => none) ≠ []) (Told cx.query as) st := by
      rcases ha with ha | ha
      · exact construct_left ha e1
      · exact fresh_construct ha e1
    refine ⟨st, e1, fun hacc => ?_, fun hrej x hx => Classical.not_not.1 (hl.miss hrej x hx)⟩
    obtain ⟨b, s1, _, s2, s3⟩ := hl.hit hacc
    obtain ⟨w, w1, w2⟩ := told_reports s2 hacc s1
    refine ⟨b, w, w2, Nat.zero_le _, w1, fun x _ hx => ?_⟩
    cases hcx : as.ways cx.query 0 x noCaps with
    | nil => rfl
    | cons y l => have := s3 x (by show as.ways cx.query 0 x noCaps ≠ []; rw [hcx]; simp); omega
  · simp only [Ctx.qend] at h2; omega

/-- The search from any position. -/
theorem nested_from (as : Alts) (hr : as.committed = true) (hre : as.retries = true) (hc : ∀ c ∈ as.spell, c ∈ allChars) :
    ∃ t, compile as.spell = some t ∧
      ∀ (cx : Ctx), (∀ c ∈ cx.query, c ∈ allChars) → cx.query.length < 4294967295 → (as.dollars = true → cx.post.head? = some 0) →
        (∀ st, Reach cx t st → 0 ≤ st.pos ∧ st.pos ≤ cx.qend + 1) ∧
        ∀ (fuel : Nat), cx.query.length ≤ fuel → ∀ (st : St) (i : Nat), st.pos = i → st.pos ≤ cx.qend + 1 →
          ∃ st', next cx t fuel st = .ok st' ∧
            (st'.accepted = true → ∃ s w, Reports as st' s w ∧ PreferredWay cx.query as i s w) ∧
            (st'.accepted = false → ∀ x, i ≤ x → x < cx.query.length → as.ways cx.query 0 x noCaps = []) := by
  obtain ⟨t, ms, ht, hrow, hj, hst⟩ := committed_compile as hr hc
  refine ⟨t, ht, fun cx hq hlen hn => ?_⟩
  have hsafe := (fit_safe hrow hj hst hn).1
  have hfront : as.atFront = true ∨ (as.atFront = false ∧ as.resumes = true) := by
    simp only [Alts.retries, Bool.or_eq_true] at hre
    cases h : as.atFront with
    | true => exact .inl rfl
    | false => rw [h] at hre; exact .inr ⟨rfl, by simpa using hre⟩
  rcases hfront with hfr | ⟨hnf, hre⟩
  · refine ⟨fun st hreach => inv_pos (reach_inv hsafe hreach), fun fuel hfuel st i hpos hle => ?_⟩
    have h0 : 0 ≤ st.pos := by omega
    rcases next_good hsafe fuel st h0 hle with ⟨st', e1, hi⟩ | ⟨_, h2⟩
    · have hI : ∀ x, Carries as x (List.replicate (groupsOf t) (none : Option (Int × Int))) := fun x => .inr (.inl (fun v hv => List.eq_of_mem_replicate hv))
      refine ⟨st', e1, fun hacc => ?_, fun hrej x hx1 hx2 => ?_⟩
      · obtain ⟨s, s1, s2, s3⟩ := next_own hsafe (I := Carries as)
          (fun L s st st' hL hs hg hb e => (committed_own hr hrow hj hst hlen hq hn hL hs hg hb e).2) hI h0 e1 hacc
        obtain ⟨w, w1, w2⟩ := told_reports s3 hacc s1
        have hs : s = 0 := Classical.byContradiction (fun h => by rw [front_only hfr h] at w1; cases w1)
        subst hs
        have : off st = i := by unfold off; omega
        exact ⟨0, w, w2, by omega, w1, fun x _ hx => (by omega)⟩
      · rcases Nat.eq_zero_or_pos x with rfl | hx0
        · have hp0 : st.pos = 0 := by omega
          obtain ⟨st1, e2, e3⟩ := nextLoop_first (show nextLoop cx (run cx t []) fuel { st with groups := List.replicate (groupsOf t) none, start := st.pos } = .ok st' from e1)
            (by simp only [Ctx.qend]; omega)
          have hg : Good cx ⟨0, 0, groupsOf t, fun _ _ _ => True⟩ { st with groups := List.replicate (groupsOf t) none, start := st.pos } :=
            ⟨hp0, ⟨by simp, by simp⟩, ⟨by simp [hp0], by simp [hp0, Ctx.qend]⟩, by simp, replicate_views cx _ _, fun _ _ _ _ => trivial⟩
          obtain ⟨y1, _, _⟩ := committed_own hr hrow hj hst hlen hq hn (by omega) (by omega) hg (hI _) e2
          cases hw : as.ways cx.query 0 0 noCaps with
          | nil => rfl
          | cons w l =>
            have ho : off { st with groups := List.replicate (groupsOf t) none, start := st.pos } = 0 := by simp [off, hp0]
            have ha := y1.2 (by rw [ho]; show as.ways cx.query 0 0 noCaps ≠ []; rw [hw]; simp)
            rw [e3 ha, ha] at hrej; cases hrej
        · exact front_only hfr (by omega)
    · simp only [Ctx.qend] at h2; omega
  have ha := committed_search hr hnf hre hrow hj hst hlen hq hn
  refine ⟨fun st hreach => inv_pos (reach_inv hsafe hreach), fun fuel hfuel st i hpos hle => ?_⟩
  have h0 : 0 ≤ st.pos := by omega
  rcases next_good hsafe fuel st h0 hle with ⟨st', e1, hi⟩ | ⟨_, h2⟩
  · have hl : LeftFromG cx (fun i => as.ways cx.query 0 i (fun _ => none) ≠ []) (Told cx.query as) (off st) st' := by
      rcases ha with ha | ha
      · exact next_left ha h0 e1
      · exact fresh_next ha h0 e1
    have hoff : off st = i := by unfold off; omega
    rw [hoff] at hl
    refine ⟨st', e1, fun hacc => ?_, fun hrej x hx1 hx2 => Classical.not_not.1 (hl.miss hrej x hx1 hx2)⟩
    obtain ⟨b, s1, s2, _, s3, s4⟩ := hl.hit hacc
    obtain ⟨w, w1, w2⟩ := told_reports s3 hacc s1
    refine ⟨b, w, w2, s2, w1, fun x hx hlt => ?_⟩
    cases hcx : as.ways cx.query 0 x noCaps with
    | nil => rfl
    | cons y l => have := s4 x hx (by show as.ways cx.query 0 x noCaps ≠ []; rw [hcx]; simp); omega
  · simp only [Ctx.qend] at h2; omega

/-- **C49 (partial), nested groups.** The same for `next()` on any accepted result obtained so far. -/
theorem C49_nested_next_partial (as : Alts) (hr : as.committed = true) (hre : as.retries = true) (hc : ∀ c ∈ as.spell, c ∈ allChars) :
    ∃ t, compile as.spell = some t ∧
      ∀ (cx : Ctx), (∀ c ∈ cx.query, c ∈ allChars) → cx.query.length < 4294967295 → (as.dollars = true → cx.post.head? = some 0) →
        ∀ (fuel : Nat), cx.query.length ≤ fuel → ∀ (st : St), Reach cx t st → ∀ f i : Nat, toView st = some ((f : Int), (i : Int)) →
          ∃ st', next cx t fuel st = .ok st' ∧
            (st'.accepted = true → ∃ s w, Reports as st' s w ∧ PreferredWay cx.query as i s w) ∧
            (st'.accepted = false → ∀ x, i ≤ x → x < cx.query.length → as.ways cx.query 0 x noCaps = []) := by
  obtain ⟨t, ht, hall⟩ := nested_from as hr hre hc
  refine ⟨t, ht, fun cx hq hlen hn fuel hfuel st hreach f i hv => ?_⟩
  obtain ⟨h1, h2⟩ := hall cx hq hlen hn
  exact h2 fuel hfuel st i (view_pos hv) (h1 st hreach).2

/-! ## the hypotheses are met -/

private def a (c : Char) : Atom := .chr c.toNat
private def sq (l : List (Atom × Quant)) (dollar : Bool) : Sq := l.foldr (fun x s => .cons x.1 x.2 s) (.nil dollar)
private def grp (b : Sq) : Atom := .group true (.last false b)
private def either (b c : Sq) : Atom := .group true (.more false b (.last false c))
private def word : Atom := .esc 119
private def digit : Atom := .esc 100

/-- `((\w+)=(\d+))` -/
def bindingPattern : Alts :=
  .last false (sq [(grp (sq [(grp (sq [(word, .plus .greedy)] false), .once), (a '=', .once), (grp (sq [(digit, .plus .greedy)] false), .once)] false), .once)] false)
example : bindingPattern.committed = true ∧ bindingPattern.retries = true ∧ bindingPattern.spell = str "((\\w+)=(\\d+))" ∧ (∀ c ∈ bindingPattern.spell, c ∈ allChars) := by
  decide +kernel
example : shownWays bindingPattern "; ab=12" 2 = [(7, [some (2, 7), some (2, 4), some (5, 7)]), (6, [some (2, 6), some (2, 4), some (5, 6)])] ∧
    m "((\\w+)=(\\d+))" "; ab=12" = some [some "ab=12", some "ab=12", some "ab", some "12"] := by decide +kernel

/-- `(x(\d+))+`: a group inside a repeated group. -/
def runPattern : Alts := .last false (sq [(grp (sq [(a 'x', .once), (grp (sq [(digit, .plus .greedy)] false), .once)] false), .plus .greedy)] false)
example : runPattern.committed = true ∧ runPattern.retries = true ∧ runPattern.spell = str "(x(\\d+))+" ∧ (∀ c ∈ runPattern.spell, c ∈ allChars) := by decide +kernel
example : (shownWays runPattern "x1x23x" 0).head? = some (5, [some (2, 5), some (3, 5)]) ∧ m "(x(\\d+))+" "x1x23x" = some [some "x1x23", some "x23", some "23"] := by decide +kernel

/-- `^(\w+)(,(\w+))*$`: a line of values; the first group is followed by groups that need not take part. -/
def valuesPattern : Alts :=
  .last true (sq [(grp (sq [(word, .plus .greedy)] false), .once), (grp (sq [(a ',', .once), (grp (sq [(word, .plus .greedy)] false), .once)] false), .star .greedy)] true)
example : valuesPattern.committed = true ∧ valuesPattern.retries = true ∧ valuesPattern.spell = str "^(\\w+)(,(\\w+))*$" ∧ (∀ c ∈ valuesPattern.spell, c ∈ allChars) := by
  decide +kernel
example : (shownWays valuesPattern "ab,c,de" 0).head? = some (7, [some (0, 2), some (4, 7), some (5, 7)]) ∧
    m "^(\\w+)(,(\\w+))*$" "ab,c,de" = some [some "ab,c,de", some "ab", some ",de", some "de"] ∧ m "^(\\w+)(,(\\w+))*$" "ab,c!" = none := by decide +kernel

/-- `(a(b(c)?)?)`: three levels, and groups that may take no part. -/
def deepPattern : Alts :=
  .last false (sq [(grp (sq [(a 'a', .once), (grp (sq [(a 'b', .once), (grp (sq [(a 'c', .once)] false), .opt .greedy)] false), .opt .greedy)] false), .once)] false)
example : deepPattern.committed = true ∧ deepPattern.retries = true ∧ deepPattern.spell = str "(a(b(c)?)?)" ∧ (∀ c ∈ deepPattern.spell, c ∈ allChars) := by decide +kernel
example : shownWays deepPattern "abd" 0 = [(2, [some (0, 2), some (1, 2), none]), (1, [some (0, 1), none, none])] ∧
    m "(a(b(c)?)?)" "abc" = some [some "abc", some "abc", some "bc", some "c"] := by decide +kernel

/-- `\w+(,(\d+|x(y|z)+))*` -/
def listPattern : Alts :=
  .last false (sq [(word, .plus .greedy), (grp (sq [(a ',', .once), (either (sq [(digit, .plus .greedy)] false)
    (sq [(a 'x', .once), (either (sq [(a 'y', .once)] false) (sq [(a 'z', .once)] false), .plus .greedy)] false), .once)] false), .star .greedy)] false)
example : listPattern.committed = true ∧ listPattern.retries = true ∧ listPattern.spell = str "\\w+(,(\\d+|x(y|z)+))*" ∧ (∀ c ∈ listPattern.spell, c ∈ allChars) := by
  decide +kernel
example : (shownWays listPattern "f,12,xyz" 0).head? = some (8, [some (4, 8), some (5, 8), some (7, 8)]) ∧
    m "\\w+(,(\\d+|x(y|z)+))*" "f,12,xyz" = some [some "f,12,xyz", some ",xyz", some "xyz", some "z"] := by decide +kernel

private def plainGrp (b : Sq) : Atom := .group false (.last false b)

/-- `^\d+(?:,\d+)*$`: anchored, so that the heuristics leave the quantifiers greedy. -/
def csvPattern : Alts :=
  .last true (sq [(digit, .plus .greedy), (plainGrp (sq [(a ',', .once), (digit, .plus .greedy)] false), .star .greedy)] true)
example : csvPattern.committed = true ∧ csvPattern.retries = true ∧ csvPattern.spell = str "^\\d+(?:,\\d+)*$" ∧ (∀ c ∈ csvPattern.spell, c ∈ allChars) := by decide +kernel
example : shownWays csvPattern "1,22,3" 0 = [(6, [])] ∧ shownWays csvPattern "1,,3" 0 = [] ∧ m "^\\d+(?:,\\d+)*$" "1,22,3" = some [some "1,22,3"] ∧
    m "^\\d+(?:,\\d+)*$" "1,,3" = none := by decide +kernel

/-- `^(?:\d+[.]){3}\d+$` -/
def ipPattern : Alts :=
  .last true (sq [(plainGrp (sq [(digit, .plus .greedy), (.cls false [.chr 46] false, .once)] false), .exact [51] .greedy), (digit, .plus .greedy)] true)
example : ipPattern.committed = true ∧ ipPattern.retries = true ∧ ipPattern.spell = str "^(?:\\d+[.]){3}\\d+$" ∧ (∀ c ∈ ipPattern.spell, c ∈ allChars) := by decide +kernel
example : m "^(?:\\d+[.]){3}\\d+$" "10.0.0.255" = some [some "10.0.0.255"] ∧ m "^(?:\\d+[.]){3}\\d+$" "10.0.0" = none := by decide +kernel

/-- `^(\w+)=(\d+|t)$` -/
def settingPattern : Alts :=
  .last true (sq [(grp (sq [(word, .plus .greedy)] false), .once), (a '=', .once), (either (sq [(digit, .plus .greedy)] false) (sq [(a 't', .once)] false), .once)] true)
example : settingPattern.committed = true ∧ settingPattern.retries = true ∧ settingPattern.spell = str "^(\\w+)=(\\d+|t)$" ∧ (∀ c ∈ settingPattern.spell, c ∈ allChars) := by
  decide +kernel
example : (shownWays settingPattern "ab=12" 0).head? = some (5, [some (0, 2), some (3, 5)]) ∧
    m "^(\\w+)=(\\d+|t)$" "ab=12" = some [some "ab=12", some "ab", some "12"] := by decide +kernel

/-- `^\w+(?:[.]\w+)*@\w+(?:[.]\w+)+$` -/
def emailPattern : Alts :=
  .last true (sq [(word, .plus .greedy), (plainGrp (sq [(.cls false [.chr 46] false, .once), (word, .plus .greedy)] false), .star .greedy), (a '@', .once),
    (word, .plus .greedy), (plainGrp (sq [(.cls false [.chr 46] false, .once), (word, .plus .greedy)] false), .plus .greedy)] true)
example : emailPattern.committed = true ∧ emailPattern.retries = true ∧ emailPattern.spell = str "^\\w+(?:[.]\\w+)*@\\w+(?:[.]\\w+)+$" ∧
    (∀ c ∈ emailPattern.spell, c ∈ allChars) := by decide +kernel
example : m "^\\w+(?:[.]\\w+)*@\\w+(?:[.]\\w+)+$" "a.b@c.d.e" = some [some "a.b@c.d.e"] ∧ m "^\\w+(?:[.]\\w+)*@\\w+(?:[.]\\w+)+$" "a.b@c" = none := by decide +kernel

/-- `^\s*(\w+)\s*=\s*(\d+)$`: quantifiers that stay greedy, in front of a group too. -/
def entryPattern : Alts :=
  .last true (sq [(.esc 115, .star .greedy), (grp (sq [(word, .plus .greedy)] false), .once), (.esc 115, .star .greedy), (a '=', .once), (.esc 115, .star .greedy),
    (grp (sq [(digit, .plus .greedy)] false), .once)] true)
example : entryPattern.committed = true ∧ entryPattern.retries = true ∧ entryPattern.spell = str "^\\s*(\\w+)\\s*=\\s*(\\d+)$" ∧ (∀ c ∈ entryPattern.spell, c ∈ allChars) := by
  decide +kernel
example : (shownWays entryPattern " ab = 12" 0).head? = some (8, [some (1, 3), some (6, 8)]) ∧
    m "^\\s*(\\w+)\\s*=\\s*(\\d+)$" " ab = 12" = some [some " ab = 12", some "ab", some "12"] := by decide +kernel

/-- `^(\w+)(?:,\w+)*$`: a group around a quantifier that stays greedy. -/
def headPattern : Alts :=
  .last true (sq [(grp (sq [(word, .plus .greedy)] false), .once), (plainGrp (sq [(a ',', .once), (word, .plus .greedy)] false), .star .greedy)] true)
example : headPattern.committed = true ∧ headPattern.retries = true ∧ headPattern.spell = str "^(\\w+)(?:,\\w+)*$" ∧ (∀ c ∈ headPattern.spell, c ∈ allChars) := by decide +kernel
example : (shownWays headPattern "ab,c,de" 0).head? = some (7, [some (0, 2)]) ∧
    m "^(\\w+)(?:,\\w+)*$" "ab,c,de" = some [some "ab,c,de", some "ab"] ∧ m "^(\\w+)(?:,\\w+)*$" "ab,,c" = none := by decide +kernel

/-- `((a|b)+c)` meets the condition of `C49_nested_own_start_partial` only: the search may skip a match. -/
def tailPattern : Alts :=
  .last false (sq [(grp (sq [(either (sq [(a 'a', .once)] false) (sq [(a 'b', .once)] false), .plus .greedy), (a 'c', .once)] false), .once)] false)
example : tailPattern.committed = true ∧ tailPattern.retries = false ∧ tailPattern.spell = str "((a|b)+c)" ∧ (∀ c ∈ tailPattern.spell, c ∈ allChars) ∧
    m "((a|b)+c)" "abac" = some [some "abac", some "abac", some "a"] := by decide +kernel

/-- `((a|b)c)+` -/
def stickyPattern : Alts :=
  .last false (sq [(grp (sq [(either (sq [(a 'a', .once)] false) (sq [(a 'b', .once)] false), .once), (a 'c', .once)] false), .plus .greedy)] false)

/-- **C49 is false in general**: `((a|b)c)+` on "acbx" matches "ac", and there the inner group has matched "a"; the library reports "b", which it found in a repetition that failed. -/
theorem C49_refuted_inner_stale : stickyPattern.spell = str "((a|b)c)+" ∧ stickyPattern.committed = false ∧
    shownWays stickyPattern "acbx" 0 = [(2, [some (0, 2), some (0, 1)])] ∧ m "((a|b)c)+" "acbx" = some [some "ac", some "ac", some "b"] := by decide +kernel

end ERegex.Props

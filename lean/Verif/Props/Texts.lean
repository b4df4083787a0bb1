import Verif.Proofs.Texts
import Verif.Proofs.WaysDen
import Verif.Props.Capture
import Verif.Props.Leftmost
import Verif.Props.Syntax
/-!
# C59, C60 : the text of a result, and the texts a pattern stands for

`viewBytes cx v` are the characters a program reads through the view `v` (`none`: it reads outside the readable memory).
`as.Stands w` (Spec/Texts.lean): the text `w` is one of the texts that the pattern `as` stands for, by the textbook definition on
strings.
-/
set_option autoImplicit false
namespace ERegex.Props
open ERegex ERegex.Spec
open ERegex.Conformance (lit m)

/-! ## C59 -/

/-- The view `v` lies inside the query `q`, ends behind its beginning, and `text` is what stands there. -/
def Shows (q : List Int) (v : View) (text : List Int) : Prop :=
  ∃ before after, q = before ++ text ++ after ∧ v = some ((before.length : Int), ((before.length + text.length : Nat) : Int))

theorem shows_part {q : List Int} {i j : Nat} (h1 : i ≤ j) (h2 : j ≤ q.length) : Shows q (some ((i : Int), (j : Int))) (part q i j) := by
  refine ⟨q.take i, q.drop j, part_split h1, ?_⟩
  have e1 : (q.take i).length = i := by simp only [List.length_take]; omega
  rw [e1, part_length h2]
  have : i + (j - i) = j := by omega
  rw [this]

theorem shows_reads {cx : Ctx} {v : View} {text : List Int} (h : Shows cx.query v text) : viewBytes cx v = some text := by
  obtain ⟨u, w, h1, rfl⟩ := h
  have hl : u.length + text.length ≤ cx.query.length := by rw [h1]; simp only [List.length_append]; omega
  rw [viewBytes_part hl]
  unfold part
  rw [Nat.add_sub_cancel_left, occurs_take h1]

theorem shown_of {cx : Ctx} {b e : Int} (h0 : 0 ≤ b) (h1 : b ≤ e) (h2 : e ≤ cx.query.length) :
    ∃ text, viewBytes cx (some (b, e)) = some text ∧ Shows cx.query (some (b, e)) text := by
  obtain ⟨i, rfl⟩ := Int.eq_ofNat_of_zero_le h0
  obtain ⟨j, rfl⟩ := Int.eq_ofNat_of_zero_le (show 0 ≤ e by omega)
  have hs := shows_part (q := cx.query) (i := i) (j := j) (by omega) (by omega)
  exact ⟨_, shows_reads hs, hs⟩

theorem fwd_groups {cx : Ctx} {t : Node} {st : St} (hr : Reach cx t st) (hfw : forward t = true) : ∀ b e, some (b, e) ∈ st.groups → b ≤ e := by
  cases hr with
  | @make f _ e =>
    rcases construct_fwd (cx := cx) hfw f with e' | ⟨s, e', hs⟩ | ⟨e', _⟩
    · rw [e] at e'; cases e'
    · rw [e] at e'; cases e'; exact hs.1
    · rw [e] at e'; cases e'
  | @next f st0 _ _ e =>
    rcases next_fwd (cx := cx) hfw f st0 with e' | ⟨s, e', hs, _⟩ | ⟨e', _⟩
    · rw [e] at e'; cases e'
    · rw [e] at e'; cases e'; exact hs
    · rw [e] at e'; cases e'

/-- **C59 (partial).** For every pattern that meets the condition of C18 (or of C19, if the query is followed by a NUL byte), every query
and every result obtained from it: the whole match of an accepted result can be read, and what is read is a piece of the query, namely
the one that stands where the view says; a result that is not accepted reads as the empty text; and if the pattern has no fixed-width
greedy optional every group can be read in the same way, a group without capture reading as the empty text.  Missing: the other patterns, for
which a view can lie outside the query (C18). -/
theorem C59_reads_the_query_partial (p : List Int) (t : Node) (h : compile p = some t) (nul : Bool) (hs : safe nul t = true) (cx : Ctx)
    (hnul : nul = true → cx.post.head? = some 0) (st : St) (hr : Reach cx t st) :
    (st.accepted = true → ∃ text, viewBytes cx (toView st) = some text ∧ Shows cx.query (toView st) text) ∧
    (st.accepted = false → viewBytes cx (toView st) = some []) ∧
    (forward t = true → ∀ k v, getGroup st (k + 1) = some v → ∃ text, viewBytes cx v = some text ∧ (v = none ∧ text = [] ∨ Shows cx.query v text)) := by
  have hsafe : SafeTree cx t := compile_safeTree h hs hnul
  have hi := reach_inv hsafe hr
  refine ⟨fun ha => ?_, fun ha => by simp [toView, ha, viewBytes], fun hf k v hg => ?_⟩
  · have h1 := hi.start
    have h2 := hi.acc ha
    simp only [toView, ha, if_true]
    exact shown_of h1.1 h1.2 h2
  · cases v with
    | none => exact ⟨[], rfl, Or.inl ⟨rfl, rfl⟩⟩
    | some v =>
      obtain ⟨b, e⟩ := v
      simp only [getGroup, Nat.add_one_ne_zero, if_false, Nat.add_sub_cancel] at hg
      have hm := List.mem_of_getElem? hg
      have h1 := hi.views _ hm b e rfl
      have h2 := fwd_groups hr hf b e hm
      obtain ⟨text, a1, a2⟩ := shown_of (cx := cx) h1.1 h2 h1.2.2.2
      exact ⟨text, a1, Or.inr a2⟩

/-- The date of the README, by its captures. -/
example : ∃ t st, compile (str "(\\d+)-(\\d+)-(\\d+)") = some t ∧ safe false t = true ∧ forward t = true ∧
    construct (bare (str "on 2024-05-17.")) t 20 = .ok st ∧ st.accepted = true ∧ viewBytes (bare (str "on 2024-05-17.")) (toView st) = some (str "2024-05-17") ∧
    (getGroup st 2).bind (viewBytes (bare (str "on 2024-05-17."))) = some (str "05") :=
  ⟨_, { start := 3, pos := 13, groups := [some (3, 7), some (8, 10), some (11, 13)], accepted := true }, rfl, by decide +kernel, by decide +kernel,
    by decide +kernel, rfl, by decide +kernel, by decide +kernel⟩

/-! ## C49: the specification against the textbook relation -/

/-- **C49, sanity of the specification.** For every pattern, with any nesting of groups, quantifiers and anchors (bounds in order), every way of the
backtracking specification is a match of the pattern as written. -/
theorem C49_ways_are_matches (as : Alts) (hf : as.fair = true) (q : List Int) (i : Nat) (w : Way) (h : w ∈ as.ways q 0 i noCaps) :
    Den q as.sem i w.1 := alts_sound q as hf 0 i noCaps w h

/-- **C49, sanity of the specification.** If no quantifier is possessive, every match of the pattern as written is one of the ways. -/
theorem C49_matches_are_ways (as : Alts) (hy : as.yields = true) (q : List Int) (i j : Nat) (hi : i ≤ q.length) (h : Den q as.sem i j) :
    ∃ w ∈ as.ways q 0 i noCaps, w.1 = j := alts_complete q as hy 0 i j noCaps hi h

/-! ## C60 -/

/-- Some piece of `q` is a text of the pattern. -/
def Contains (q : List Int) (as : Alts) : Prop := ∃ before text after, q = before ++ text ++ after ∧ as.Stands text

/-- The result shows a text of the pattern, and no text of the pattern begins further to the left. -/
def ShowsLeftmost (cx : Ctx) (as : Alts) (st : St) : Prop :=
  ∃ before text after, cx.query = before ++ text ++ after ∧ as.Stands text ∧
    toView st = some ((before.length : Int), ((before.length + text.length : Nat) : Int)) ∧ viewBytes cx (toView st) = some text ∧
    ∀ before' text' after', cx.query = before' ++ text' ++ after' → as.Stands text' → before.length ≤ before'.length

theorem contains_den {q : List Int} {as : Alts} {before text after : List Int} (h : q = before ++ text ++ after) (hs : as.Stands text) :
    Den q as.sem before.length (before.length + text.length) := stands_den q as.sem text before.length hs (occurs_take h)

/-- From positions to texts. -/
theorem leftmost_shows {cx : Ctx} {as : Alts} (hfl : as.floats = true) {st : St} {s j : Nat} (hv : toView st = some ((s : Int), (j : Int)))
    (hj : j ≤ cx.query.length) (hd : Den cx.query as.sem s j) (hl : ∀ x y, Den cx.query as.sem x y → s ≤ x) : ShowsLeftmost cx as st := by
  obtain ⟨h1, h2⟩ := den_stands cx.query as.sem hfl s j hd
  obtain ⟨u, w, h3, h4⟩ := shows_part (q := cx.query) h1 hj
  refine ⟨u, part cx.query s j, w, h3, h2, hv.trans h4, ?_, fun u' v' w' h5 h6 => ?_⟩
  · rw [hv]; exact shows_reads ⟨u, w, h3, h4⟩
  · have := hl _ _ (contains_den h5 h6)
    simp only [Option.some.injEq, Prod.mk.injEq] at h4
    omega

theorem contains_early {q : List Int} {as : Alts} (h : Contains q as) : ∃ x j, (x = 0 ∨ x < q.length) ∧ Den q as.sem x j := by
  obtain ⟨u, v, w, h1, h2⟩ := h
  by_cases hv : v = []
  · subst hv
    exact ⟨0, _, Or.inl rfl, contains_den (before := []) (text := []) (after := q) rfl h2⟩
  · refine ⟨u.length, _, Or.inr ?_, contains_den h1 h2⟩
    have : 0 < v.length := List.length_pos_iff.2 hv
    rw [h1]; simp only [List.length_append]; omega

/-- **C60 (partial).** For every well-formed pattern without anchors whose compiled tree meets the conditions of C30: matching accepts exactly the
queries that contain a text of the pattern, and shows one that begins leftmost.  Missing: the other patterns, for many of which it is false
(C20, C30); patterns with anchors, whose meaning depends on the place (C28, C29, C30). -/
theorem C60_found_iff_contained_partial (as : Alts) (hok : as.ok = true) (hfl : as.floats = true) (t : Node) (h : compile as.spell = some t)
    (nul e : Bool) (hf : findsTree nul e t = true) (cx : Ctx) (hnul : nul = true → cx.post.head? = some 0) (he : e = false → 0 < cx.query.length)
    (hlen : cx.query.length < 4294967295) (fuel : Nat) (hfuel : cx.query.length ≤ fuel) :
    ∃ st, construct cx t fuel = .ok st ∧ (st.accepted = true ↔ Contains cx.query as) ∧ (st.accepted = true → ShowsLeftmost cx as st) := by
  obtain ⟨b, hb, hsame⟩ := build_syntax as hok
  obtain ⟨st, e1, h1, h2⟩ := C30_leftmost_partial _ b t hb h nul e hf cx hnul he hlen fuel hfuel
  have hsafe : safe nul t = true := by simp only [findsTree, Bool.and_eq_true] at hf; exact hf.1.1.1
  have key : st.accepted = true → ShowsLeftmost cx as st := by
    intro ha
    obtain ⟨s, j, hv, hd, hfirst⟩ := h1 ha
    have hi := (reach_inv (compile_safeTree h hsafe hnul) (.make e1)).acc ha
    have hj : j ≤ cx.query.length := by
      simp only [toView, ha, if_true, Option.some.injEq, Prod.mk.injEq] at hv
      simp only [Ctx.qend] at hi
      omega
    exact leftmost_shows hfl hv hj ((hsame _ _ _).1 hd) (fun x y hx => hfirst.2.2 x y (Nat.zero_le _) ((hsame _ _ _).2 hx))
  refine ⟨st, e1, ⟨fun ha => ?_, fun hc => ?_⟩, key⟩
  · obtain ⟨u, v, w, h3, h4, _⟩ := key ha
    exact ⟨u, v, w, h3, h4⟩
  · obtain ⟨x, j, hx, hd⟩ := contains_early hc
    exact h2 ⟨x, j, hx, (hsame _ _ _).2 hd⟩

theorem sane_fair {k : Quant} (h : k.sane = true) : (match k.hi with | none => true | some h => decide (k.lo ≤ h)) = true := by
  simp only [Quant.sane, Bool.and_eq_true] at h
  cases e : k.hi with
  | none => rfl
  | some n => rw [e] at h; simp only [Bool.and_eq_true] at h; exact h.2.1

theorem atom_fair {a : Atom} (h : (a.steady || a.skips) = true) : a.fair = true := by
  cases a <;> first | rfl | (simp [Atom.steady, Atom.skips] at h)

theorem flat_fair : ∀ (s : Sq), flat s = true → s.fair = true
  | .nil _, _ => rfl
  | .cons a k s, h => by
    simp only [flat, Bool.and_eq_true] at h
    simp only [Sq.fair, Bool.and_eq_true]
    exact ⟨⟨atom_fair h.1.1, sane_fair h.1.2⟩, flat_fair s h.2⟩

theorem flats_fair : ∀ (as : Alts), flats as = true → as.fair = true
  | .last _ s, h => flat_fair s h
  | .more _ s as, h => by
    simp only [flats, Bool.and_eq_true] at h
    simp only [Alts.fair, Bool.and_eq_true]
    exact ⟨flat_fair s h.1, flats_fair as h.2⟩

theorem capOk_fair : ∀ (s : Sq), s.capOk = true → s.fair = true
  | .nil _, _ => rfl
  | .cons (.group capture as) k s, h => by
    have hsh := shallow_group (capOk_shallow _ h)
    simp only [Sq.fair, Atom.fair, Bool.and_eq_true]
    cases k with
    | once =>
      simp only [Sq.capOk, Bool.and_eq_true] at h
      exact ⟨⟨flats_fair as hsh.1, by decide⟩, capOk_fair s h.2⟩
    | star | plus | opt | exact | atLeast | between =>
      simp only [Sq.capOk, repOk, Bool.and_eq_true] at h
      exact ⟨⟨flats_fair as hsh.1, sane_fair h.1.1.1.1.2⟩, capOk_fair s h.2⟩
  | .cons (.chr _) k s, h | .cons (.esc _) k s, h | .cons .dot k s, h | .cons (.hex ..) k s, h | .cons (.oct ..) k s, h
  | .cons (.cls ..) k s, h => by
    simp only [Sq.capOk, Bool.and_eq_true] at h
    simp only [Sq.fair, Atom.fair, Bool.and_eq_true]
    exact ⟨⟨trivial, sane_fair h.1.1.2⟩, capOk_fair s h.2⟩

theorem floats_dollar : ∀ (s : Sq), s.sem.floats = true → s.dollar = false
  | .nil d, h => by cases d <;> simp [Sq.sem, Rx.floats, Sq.dollar] at h ⊢
  | .cons a k s, h => by
    simp only [Sq.sem, Rx.floats, Bool.and_eq_true] at h
    exact floats_dollar s h.2

theorem floats_alts : ∀ (as : Alts), as.floats = true → as.dollar = false
  | .last hat s, h => by
    cases hat
    · exact floats_dollar s h
    · simp [Alts.floats, Alts.sem, Rx.floats] at h
  | .more hat s as, h => by
    simp only [Alts.floats, Alts.sem, Rx.floats, Bool.and_eq_true] at h
    simp only [Alts.dollar, Bool.or_eq_false_iff]
    refine ⟨?_, floats_alts as h.2⟩
    cases hat
    · exact floats_dollar s h.1
    · simp [Rx.floats] at h

theorem part_beyond {q : List Int} {i j : Nat} (h : q.length ≤ i) : part q i j = [] := by
  unfold part; rw [List.drop_eq_nil_of_le h]; simp

/-- If a match begins behind the end of the query, the empty text is a text of the pattern. -/
theorem den_beyond {q : List Int} {as : Alts} (hfl : as.floats = true) {i j : Nat} (hi : q.length < i) (h : Den q as.sem i j) : Den q as.sem 0 0 := by
  have h1 := (den_stands q as.sem hfl i j h).2
  rw [part_beyond (by omega)] at h1
  exact contains_den (before := []) (text := []) (after := q) rfl h1

/-- What the two theorems below share: the first position with a match, by a list of the matches at each position. -/
theorem first_shows {cx : Ctx} {as : Alts} (hfl : as.floats = true) {α : Type} (l : Nat → List α) (en : α → Nat)
    (hs : ∀ i w, w ∈ l i → Den cx.query as.sem i (en w)) (hc : ∀ i j, i ≤ cx.query.length → Den cx.query as.sem i j → l i ≠ []) {st : St} {s : Nat} {w : α}
    (hv : toView st = some ((s : Int), (en w : Int))) (hw : (l s).head? = some w) (hx : ∀ x, x < s → l x = []) : ShowsLeftmost cx as st := by
  have hd := hs s w (List.mem_of_mem_head? hw)
  have hle : s ≤ cx.query.length := by
    by_cases hle : s ≤ cx.query.length
    · exact hle
    · exact absurd (hx 0 (by omega)) (hc 0 0 (Nat.zero_le _) (den_beyond hfl (by omega) hd))
  refine leftmost_shows hfl hv ((den_le _ _ _ _ hd).2 hle) hd (fun x y hxy => ?_)
  by_cases hlt : s ≤ x
  · exact hlt
  · exact absurd (hx x (by omega)) (hc x y (by omega) hxy)

theorem alts_fair : ∀ (as : Alts), (∀ s ∈ as.list, s.capOk = true) → as.fair = true
  | .last _ s, h => capOk_fair s (h s (by simp [Alts.list]))
  | .more _ s as, h => by
    simp only [Alts.fair, Bool.and_eq_true]
    exact ⟨capOk_fair s (h s (by simp [Alts.list])), alts_fair as (fun s hs => h s (by simp [Alts.list, hs]))⟩

/-- From what a backtracking matcher reports to the texts. -/
theorem texts_of {as : Alts} {t : Node} (hfair : as.fair = true) (hfl : as.floats = true) (hy : as.yields = true)
    (hall : ∀ (cx : Ctx), (∀ c ∈ cx.query, c ∈ allChars) → cx.query.length < 4294967295 →
      ∀ (fuel : Nat), cx.query.length ≤ fuel → ∃ st, construct cx t fuel = .ok st ∧
        (st.accepted = true → ∃ s w, Reports as st s w ∧ PreferredWay cx.query as 0 s w) ∧
        (st.accepted = false → ∀ x, (x = 0 ∨ x < cx.query.length) → as.ways cx.query 0 x noCaps = [])) :
    ∀ (cx : Ctx), (∀ c ∈ cx.query, c ∈ allChars) → cx.query.length < 4294967295 →
      ∀ (fuel : Nat), cx.query.length ≤ fuel → ∃ st, construct cx t fuel = .ok st ∧ (st.accepted = true ↔ Contains cx.query as) ∧
        (st.accepted = true → ShowsLeftmost cx as st) := by
  intro cx hq hlen fuel hfuel
  obtain ⟨st, e1, h1, h2⟩ := hall cx hq hlen fuel hfuel
  have hcomp : ∀ i j, i ≤ cx.query.length → Den cx.query as.sem i j → as.ways cx.query 0 i noCaps ≠ [] := by
    intro i j hi hd hnil
    obtain ⟨w, hw, _⟩ := C49_matches_are_ways as hy cx.query i j hi hd
    rw [hnil] at hw; simp at hw
  have key : st.accepted = true → ShowsLeftmost cx as st := by
    intro ha
    obtain ⟨s, w, h3, h4⟩ := h1 ha
    have hv : toView st = some ((s : Int), (w.1 : Int)) := by have := h3.1; simpa [getGroup] using this
    exact first_shows hfl (fun i => as.ways cx.query 0 i noCaps) Prod.fst (fun i w hw => C49_ways_are_matches as hfair _ _ _ hw) hcomp hv h4.2.1
      (fun x hx => h4.2.2 x (Nat.zero_le _) hx)
  refine ⟨st, e1, ⟨fun ha => ?_, fun hcon => ?_⟩, key⟩
  · obtain ⟨u, v, w, h3, h4, _⟩ := key ha
    exact ⟨u, v, w, h3, h4⟩
  · cases ha : st.accepted with
    | true => rfl
    | false =>
      obtain ⟨x, j, hx, hd⟩ := contains_early hcon
      exact absurd (h2 ha x hx) (hcomp x j (by omega) hd)

/-- **C60 (partial).** The same for the patterns with groups that meet the condition of C49 on the pattern as written, without anchors and without
possessive quantifiers. -/
theorem C60_with_groups_partial (as : Alts) (hr : as.capRegular = true) (hfl : as.floats = true) (hy : as.yields = true) (hc : ∀ c ∈ as.spell, c ∈ allChars) :
    ∃ t, compile as.spell = some t ∧ ∀ (cx : Ctx), (∀ c ∈ cx.query, c ∈ allChars) → cx.query.length < 4294967295 →
      ∀ (fuel : Nat), cx.query.length ≤ fuel → ∃ st, construct cx t fuel = .ok st ∧ (st.accepted = true ↔ Contains cx.query as) ∧
        (st.accepted = true → ShowsLeftmost cx as st) := by
  obtain ⟨t, ht, hall⟩ := C49_captures_partial as hr hc
  exact ⟨t, ht, texts_of (alts_fair as (sane_alts as (regular_sane hr))) hfl hy
    (fun cx hq hlen fuel hfuel => hall cx hq hlen (by rw [floats_alts as hfl]; simp) fuel hfuel)⟩

/-- **C60 (partial).** The same for regular patterns without groups (C48). -/
theorem C60_regular_partial (as : Alts) (hr : as.regular = true) (hfl : as.floats = true) (hy : as.backtracks = true) (hc : ∀ c ∈ as.spell, c ∈ allChars) :
    ∃ t, compile as.spell = some t ∧ ∀ (cx : Ctx), (∀ c ∈ cx.query, c ∈ allChars) → cx.query.length < 4294967295 →
      ∀ (fuel : Nat), cx.query.length ≤ fuel → ∃ st, construct cx t fuel = .ok st ∧ (st.accepted = true ↔ Contains cx.query as) ∧
        (st.accepted = true → ShowsLeftmost cx as st) := by
  obtain ⟨t, ht, hall⟩ := C48_preferred_partial as hr hc
  refine ⟨t, ht, fun cx hq hlen fuel hfuel => ?_⟩
  obtain ⟨st, e1, h1, h2⟩ := hall cx hq hlen (by rw [floats_alts as hfl]; simp) fuel hfuel
  have hcomp : ∀ i j, i ≤ cx.query.length → Den cx.query as.sem i j → as.picks cx.query i ≠ [] := by
    intro i j hi hd hnil
    have := (C48_list_of_matches as hr cx.query i j).2 hy hd
    rw [hnil] at this; simp at this
  have key : st.accepted = true → ShowsLeftmost cx as st := by
    intro ha
    obtain ⟨s, e, hv, h4⟩ := h1 ha
    exact first_shows hfl (fun i => as.picks cx.query i) id (fun i w hw => (C48_list_of_matches as hr _ _ _).1 hw) hcomp hv h4.2.1
      (fun x hx => h4.2.2 x (Nat.zero_le _) hx)
  refine ⟨st, e1, ⟨fun ha => ?_, fun hcon => ?_⟩, key⟩
  · obtain ⟨u, v, w, h3, h4, _⟩ := key ha
    exact ⟨u, v, w, h3, h4⟩
  · cases ha : st.accepted with
    | true => rfl
    | false =>
      obtain ⟨x, j, hx, hd⟩ := contains_early hcon
      exact absurd (h2 ha x hx) (hcomp x j (by omega) hd)

-- the hypotheses are met: `x(\d+)-(a|b)c`, `x(ab)+c`, `\d+(?:\.\d+)?`, `<(.*?)>`
example : [choicePattern, repeatPattern, numberPattern, tagPattern].all (fun as => as.ok && as.capRegular && as.floats && as.yields && as.fair) = true := by
  decide +kernel
example : ((compile choicePattern.spell).map (findsTree false true)).getD false = true := by decide +kernel
example : optPattern.floats = true ∧ optPattern.ok = true := by decide
/-- `ab*|xc` -/
def eitherPattern : Alts := .more false (.cons (.chr 97) .once (.cons (.chr 98) (.star .greedy) (.nil false)))
  (.last false (.cons (.chr 120) .once (.cons (.chr 99) .once (.nil false))))
example : eitherPattern.regular = true ∧ eitherPattern.floats = true ∧ eitherPattern.backtracks = true ∧ eitherPattern.spell = str "ab*|xc" := by decide +kernel
example : Contains (str "zabb") eitherPattern :=
  ⟨str "z", str "abb", [], by decide, Or.inl ⟨[97], [98, 98], rfl, ⟨97, rfl, rfl⟩, [98, 98], [], rfl,
    ⟨2, by decide, by simp, [98], [98], rfl, ⟨98, rfl, rfl⟩, [98], [], rfl, ⟨98, rfl, rfl⟩, rfl⟩, rfl⟩⟩

/-- **C60, refuted.** `ab` does not contain a text of `aa?a`, and the library accepts it. -/
theorem C60_refuted_accepts : optPattern.ok = true ∧ optPattern.floats = true ∧ optPattern.spell = str "aa?a" ∧ ¬ Contains (str "ab") optPattern ∧
    m "aa?a" "ab" = some [some "a"] := by
  refine ⟨by decide, by decide, by decide, fun h => ?_, by decide +kernel⟩
  obtain ⟨x, j, hx, hd⟩ := contains_early h
  have hlen : (str "ab").length = 2 := by decide
  rw [hlen] at hx
  have hd' := (den_iff_ends (by rw [hlen]; omega)).1 hd
  have : x = 0 ∨ x = 1 := by omega
  rcases this with rfl | rfl
  · have : ends (str "ab") optPattern.sem 0 = [] := by decide +kernel
    rw [this] at hd'; simp at hd'
  · have : ends (str "ab") optPattern.sem 1 = [] := by decide +kernel
    rw [this] at hd'; simp at hd'

/-- `a{2}b` -/
def twicePattern : Alts := .last false (.cons (.chr 97) (.exact [50] .greedy) (.cons (.chr 98) .once (.nil false)))
/-- **C60, refuted.** `aaab` contains the text `aab` of `a{2}b`, and the library does not accept it. -/
theorem C60_refuted_misses : twicePattern.ok = true ∧ twicePattern.floats = true ∧ twicePattern.spell = str "a{2}b" ∧
    Contains (str "aaab") twicePattern ∧ m "a{2}b" "aaab" = none := by
  refine ⟨by decide, by decide, by decide, ⟨[97], [97, 97, 98], [], by decide, [97, 97], [98], rfl, ?_, [98], [], rfl, ⟨98, rfl, rfl⟩, rfl⟩, by decide +kernel⟩
  exact ⟨2, by decide, fun h e => by
    simp [decimal] at e
    omega, [97], [97], rfl, ⟨97, rfl, rfl⟩, [97], [], rfl, ⟨97, rfl, rfl⟩, rfl⟩

end ERegex.Props

import Verif.Proofs.CaptureAlts
import Verif.Props.Prefer
/-!
# C49 : the captures are those of a backtracking matcher

`Spec/Backtrack.lean` defines, without reference to the library, the list `as.ways q 0 i noCaps` of all the ways in which the
pattern `as` can match from offset `i` of the query `q` on, best first, each with its end and its captures, and the conditions
`capSane` and `capRegular` on the pattern as written.  `compile p` is the optimized tree that is run, `construct` and `next` are
the constructor and `next()` of a match result, `getGroup st n` is `get_group(n)` / `operator[](n)`: 0 is the whole match.
-/
set_option autoImplicit false
namespace ERegex.Props
open ERegex ERegex.Spec
open ERegex.Conformance (lit m)

/-- No group has captured anything. -/
def noCaps : Caps := fun _ => none

/-- The result `st` reports the way `w` that begins at `s`: the text of the match and what every group has captured. -/
def Reports (as : Alts) (st : St) (s : Nat) (w : Way) : Prop :=
  getGroup st 0 = some (some ((s : Int), (w.1 : Int))) ∧
  ∀ n, n < as.count → getGroup st (n + 1) = some ((w.2 n).map (fun x => ((x.1 : Int), (x.2 : Int))))

theorem ways_at {hat : Bool} {s : Sq} (h : s.capOk = true) (q : List Int) (i : Nat) :
    (Alts.last hat s).ways q 0 i noCaps = (capsAt q hat s i).map (fun r => (r.1, fill noCaps 0 r.2)) := by
  simp only [Alts.ways, capsAt]
  split
  · rfl
  · exact ways_caps s (capOk_shallow s h) q 0 i noCaps

theorem ways_nil {hat : Bool} {s : Sq} (h : s.capOk = true) (q : List Int) (i : Nat) :
    (Alts.last hat s).ways q 0 i noCaps = [] ↔ capsAt q hat s i = [] := by
  rw [ways_at h]; simp

theorem rep_last {as : Alts} {k : Quant} {s : Sq} (h : shallow (.cons (.group true as) k s) = true) : k.lo ≠ 0 ∧ (k = .once ∨ ∀ b ∈ as.list, b.eats = true) := by
  rcases (shallow_group h).2.2 with rfl | h
  · exact ⟨by simp [Quant.lo], Or.inl rfl⟩
  · simp only [repShallow, Bool.and_eq_true, List.all_eq_true, Bool.not_true, Bool.false_or, bne_iff_ne] at h
    exact ⟨h.1.2, Or.inr h.1.1.2⟩

theorem group_inside {q : List Int} {as : Alts} {k : Quant} {s : Sq} (h : shallow (.cons (.group true as) k s) = true) {i : Nat} {p : Nat × Nat}
    (hp : p ∈ spans q.length k (as.picks q) i) (hi : i ≤ q.length) : i ≤ p.1 ∧ p.1 ≤ p.2 := by
  obtain ⟨h1, h2⟩ := rep_last h
  rcases h2 with rfl | h2
  · rw [spans_once, List.mem_map] at hp
    obtain ⟨e, he, rfl⟩ := hp
    exact ⟨Nat.le_refl _, (alts_le hi he).1⟩
  · obtain ⟨h3, h4, h5⟩ := spans_last (len := q.length) h1 ⟨fun i e he => alts_eats q as h2 i e he, fun _ _ hi he => (alts_le hi he).2⟩ hi hp
    exact ⟨h4, (alts_le h5 h3).1⟩

/-- **C49, sanity of the specification.** In every way every group has captured a part of the text between the start and the end of the match. -/
theorem caps_spans : ∀ (q : List Int) (s : Sq), shallow s = true → ∀ (i : Nat) (r : Nat × List (Nat × Nat)), i ≤ q.length → r ∈ caps q s i →
    i ≤ r.1 ∧ r.1 ≤ q.length ∧ ∀ x ∈ r.2, i ≤ x.1 ∧ x.1 ≤ x.2 ∧ x.2 ≤ r.1
  | q, .nil d, _, i, r, hi, hr => by
    simp only [caps, List.mem_map] at hr
    obtain ⟨e, he, rfl⟩ := hr
    have := picks_le q _ i e hi he
    exact ⟨this.1, this.2, by simp⟩
  | q, .cons (.group capture as) k s, h, i, r, hi, hr => by
    have hsh := shallow_group h
    simp only [caps, List.mem_flatMap, List.mem_map] at hr
    obtain ⟨e, he, r', hr', rfl⟩ := hr
    have h1 := spans_inside (fun i e hi he => alts_le hi he) hi he
    obtain ⟨h2, h3, h4⟩ := caps_spans q s hsh.2.1 e.2 r' h1.2 hr'
    refine ⟨by simp only; omega, h3, fun x hx => ?_⟩
    have rest : ∀ x ∈ r'.2, i ≤ x.1 ∧ x.1 ≤ x.2 ∧ x.2 ≤ r'.1 := fun x hx => by have := h4 x hx; omega
    cases capture with
    | false => exact rest x (by simpa using hx)
    | true =>
      simp only [if_true, List.mem_cons] at hx
      rcases hx with rfl | hx
      · have := group_inside h he hi
        exact ⟨this.1, this.2, h2⟩
      · exact rest x hx
  | q, .cons (.chr _) k s, h, i, r, hi, hr | q, .cons (.esc _) k s, h, i, r, hi, hr | q, .cons .dot k s, h, i, r, hi, hr
  | q, .cons (.hex ..) k s, h, i, r, hi, hr | q, .cons (.oct ..) k s, h, i, r, hi, hr | q, .cons (.cls ..) k s, h, i, r, hi, hr => by
    simp only [shallow, Bool.and_eq_true] at h
    simp only [caps, List.mem_flatMap] at hr
    obtain ⟨n, hn, hr⟩ := hr
    obtain ⟨_, h2⟩ := counts_sub k _ n hn
    have hle : i + n ≤ q.length := Nat.le_trans (Nat.add_le_add_left h2 i) (runLen_le q _ i hi)
    obtain ⟨h3, h4, h5⟩ := caps_spans q s h.2 _ r hle hr
    exact ⟨by omega, h4, fun x hx => by have := h5 x hx; omega⟩

theorem regular_sane {as : Alts} (h : as.capRegular = true) : as.capSane = true := by
  cases as with
  | last hat s => simp only [Alts.capRegular, Bool.and_eq_true] at h; exact h.1
  | more hat s as => exact h

theorem sane_alts : ∀ (as : Alts), as.capSane = true → ∀ s ∈ as.list, s.capOk = true
  | .last hat s, h, s', hs => by
    simp only [Alts.list, List.mem_singleton] at hs
    subst hs; exact (sane_facts h).1
  | .more hat s as, h, s', hs => by
    have row : ∀ (as : Alts) (g n : Nat), as.capRow g n = true → ∀ s ∈ as.list, s.capOk = true := by
      intro as
      induction as using Alts.rec (motive_1 := fun _ => True) (motive_2 := fun _ => True) with
      | last hat s _ =>
        intro g n h s' hs
        simp only [Alts.list, List.mem_singleton] at hs
        simp only [Alts.capRow, Bool.and_eq_true] at h
        subst hs; exact (altCap_facts h.1).1
      | more hat s as _ ih =>
        intro g n h s' hs
        simp only [Alts.list, List.mem_cons] at hs
        simp only [Alts.capRow, Bool.and_eq_true] at h
        rcases hs with rfl | hs
        · exact (altCap_facts h.1.1).1
        · exact ih _ _ h.2 s' hs
      | _ => trivial
    exact row _ 0 0 h s' hs

theorem alt_way {hat : Bool} {s : Sq} (h : s.capOk = true) {q : List Int} {n i : Nat} {w : Way}
    (hw : w ∈ (if hat && i != 0 then [] else s.ways q n i noCaps)) : ∃ r ∈ caps q s i, w = (r.1, fill noCaps n r.2) := by
  split at hw
  · simp at hw
  · rw [ways_caps s (capOk_shallow s h), List.mem_map] at hw
    obtain ⟨r, hr, rfl⟩ := hw
    exact ⟨r, hr, rfl⟩

theorem fill_some {l : List (Nat × Nat)} {n k : Nat} {x : Nat × Nat} (h : fill noCaps n l k = some x) : ∃ j, k = n + j ∧ l[j]? = some x := by
  by_cases h1 : k < n
  · rw [fill_low _ _ _ _ h1] at h; cases h
  · by_cases h2 : k < n + l.length
    · obtain ⟨j, rfl⟩ : ∃ j, k = n + j := ⟨k - n, by omega⟩
      rw [fill_at _ _ _ _ (by omega)] at h
      exact ⟨j, rfl, h⟩
    · rw [fill_high _ _ _ _ (by omega)] at h; cases h

theorem ways_inside : ∀ (as : Alts), (∀ s ∈ as.list, s.capOk = true) → ∀ (q : List Int) (n i : Nat) (w : Way), i ≤ q.length → w ∈ as.ways q n i noCaps →
    i ≤ w.1 ∧ w.1 ≤ q.length ∧ ∀ k a b, w.2 k = some (a, b) → n ≤ k ∧ k < n + as.count ∧ i ≤ a ∧ a ≤ b ∧ b ≤ w.1 := by
  have one : ∀ (hat : Bool) (s : Sq), s.capOk = true → ∀ (q : List Int) (n i : Nat) (w : Way), i ≤ q.length →
      w ∈ (if hat && i != 0 then [] else s.ways q n i noCaps) →
      i ≤ w.1 ∧ w.1 ≤ q.length ∧ ∀ k a b, w.2 k = some (a, b) → n ≤ k ∧ k < n + s.count ∧ i ≤ a ∧ a ≤ b ∧ b ≤ w.1 := by
    intro hat s h q n i w hi hw
    obtain ⟨r, hr, rfl⟩ := alt_way h hw
    obtain ⟨h2, h3, h4⟩ := caps_spans q s (capOk_shallow s h) i r hi hr
    refine ⟨h2, h3, fun k a b hk => ?_⟩
    obtain ⟨j, rfl, hj⟩ := fill_some hk
    have hl := cap_length q s (capOk_shallow s h) i r hr
    obtain ⟨hlt, he⟩ := List.getElem?_eq_some_iff.1 hj
    exact ⟨by omega, by omega, h4 (a, b) (by rw [← he]; exact List.getElem_mem hlt)⟩
  intro as
  induction as using Alts.rec (motive_1 := fun _ => True) (motive_2 := fun _ => True) with
  | last hat s _ => intro h q n i w hi hw; exact one hat s (h s (by simp [Alts.list])) q n i w hi hw
  | more hat s as _ ih =>
    intro h q n i w hi hw
    simp only [Alts.ways, List.mem_append] at hw
    rcases hw with hw | hw
    · obtain ⟨h1, h2, h3⟩ := one hat s (h s (by simp [Alts.list])) q n i w hi hw
      refine ⟨h1, h2, fun k a b hk => ?_⟩
      obtain ⟨h4, h5, h6⟩ := h3 k a b hk
      exact ⟨h4, by simp only [Alts.count]; omega, h6⟩
    · obtain ⟨h1, h2, h3⟩ := ih (fun s hs => h s (by simp [Alts.list, hs])) q _ i w hi hw
      refine ⟨h1, h2, fun k a b hk => ?_⟩
      obtain ⟨h4, h5, h6⟩ := h3 k a b hk
      exact ⟨by omega, by simp only [Alts.count]; omega, h6⟩
  | _ => trivial

/-- **C49, sanity of the specification.** In every way of a pattern that meets the condition, what a group has captured is a part of the
text between the start and the end of the match. -/
theorem C49_captures_inside (as : Alts) (hr : as.capSane = true) (q : List Int) (i : Nat) (hi : i ≤ q.length) (w : Way)
    (hw : w ∈ as.ways q 0 i noCaps) :
    i ≤ w.1 ∧ w.1 ≤ q.length ∧ ∀ n a b, w.2 n = some (a, b) → n < as.count ∧ i ≤ a ∧ a ≤ b ∧ b ≤ w.1 := by
  obtain ⟨h1, h2, h3⟩ := ways_inside as (sane_alts as hr) q 0 i w hi hw
  exact ⟨h1, h2, fun n a b h => by obtain ⟨_, h5, h6⟩ := h3 n a b h; exact ⟨by omega, h6⟩⟩

/-- **C49, sanity of the specification.** In every way of a pattern of one alternative that meets the condition, every group has captured a
part of the text between the start and the end of the match: no group is left out. -/
theorem C49_every_group_captures (hat : Bool) (s : Sq) (hr : (Alts.last hat s).capSane = true) (q : List Int) (i : Nat) (hi : i ≤ q.length) (w : Way)
    (hw : w ∈ (Alts.last hat s).ways q 0 i noCaps) :
    i ≤ w.1 ∧ w.1 ≤ q.length ∧ ∀ n, n < (Alts.last hat s).count → ∃ a b, w.2 n = some (a, b) ∧ i ≤ a ∧ a ≤ b ∧ b ≤ w.1 := by
  obtain ⟨h1, _⟩ := sane_facts hr
  have hsh := capOk_shallow s h1
  rw [ways_at h1, List.mem_map] at hw
  obtain ⟨r, hr, rfl⟩ := hw
  unfold capsAt at hr
  split at hr
  · simp at hr
  · obtain ⟨h2, h3, h4⟩ := caps_spans q s hsh i r hi hr
    refine ⟨h2, h3, fun n hn => ?_⟩
    have hlen := cap_length q s hsh i r hr
    simp only [Alts.count] at hn
    have hlt : n < r.2.length := by omega
    have hf := fill_at r.2 noCaps 0 n hlt
    rw [Nat.zero_add] at hf
    refine ⟨r.2[n].1, r.2[n].2, ?_, h4 _ (List.getElem_mem hlt)⟩
    simp only [hf, List.getElem?_eq_getElem hlt]

theorem list_bodies : ∀ (as : Alts) {b : Sq}, b ∈ as.list → ∃ x ∈ as.bodies, x.2 = b
  | .last hat s, b, h => ⟨(hat, s), by simp [Alts.bodies], by simp only [Alts.list, List.mem_singleton] at h; exact h.symm⟩
  | .more hat s as, b, h => by
    simp only [Alts.list, List.mem_cons] at h
    rcases h with rfl | h
    · exact ⟨(hat, b), by simp [Alts.bodies], rfl⟩
    · obtain ⟨x, hx, e⟩ := list_bodies as h
      exact ⟨x, by simp [Alts.bodies, hx], e⟩

/-- **C49, sanity of the specification.** For a regular pattern without groups (C48) the ways are the ends of `picks`, in the same order. -/
theorem C49_ways_extend_picks (as : Alts) (hr : as.regular = true) (q : List Int) (i : Nat) :
    (as.ways q 0 i noCaps).map Prod.fst = as.picks q i := by
  have hf : flats as = true := flats_list as (fun b hb => by
    obtain ⟨x, hx, rfl⟩ := list_bodies as hb
    exact flat_regular _ (bodies_ok as hr x hx).1)
  rw [(alts_ways as hf q 0 i noCaps).1]
  simp [Function.comp_def]

theorem right_reports {q : List Int} {hat : Bool} {s : Sq} (h : s.capOk = true) {i : Nat} {st : St} (hr : RightAt q hat s i st) (ha : st.accepted = true)
    (hst : st.start = i) : ∃ w, ((Alts.last hat s).ways q 0 i noCaps).head? = some w ∧ Reports (.last hat s) st i w := by
  unfold RightAt AgreesC at hr
  cases hc : (capsAt q hat s i).head? with
  | none => rw [hc] at hr; simp only at hr; rw [hr] at ha; cases ha
  | some r =>
    rw [hc] at hr
    obtain ⟨_, h2, h3⟩ := hr
    refine ⟨(r.1, fill noCaps 0 r.2), by rw [ways_at h, List.head?_map, hc]; rfl, ?_, fun n hn => ?_⟩
    · simp [getGroup, toView, ha, hst, h2]
    · have hmem : r ∈ caps q s i := by
        have : r ∈ capsAt q hat s i := List.mem_of_mem_head? hc
        unfold capsAt at this
        split at this
        · simp at this
        · exact this
      have hlen := cap_length q s (capOk_shallow s h) i r hmem
      simp only [Alts.count] at hn
      have hlt : n < r.2.length := by omega
      have hf := fill_at r.2 noCaps 0 n hlt
      rw [Nat.zero_add] at hf
      have hg := h3 n r.2[n] (List.getElem?_eq_getElem hlt)
      rw [Nat.zero_add] at hg
      simp only [getGroup, Nat.add_one_ne_zero, if_false, Nat.add_sub_cancel, hf, List.getElem?_eq_getElem hlt, Option.map_some, hg]

theorem told_reports {q : List Int} {as : Alts} {i : Nat} {st : St} (h : Told q as i st) (ha : st.accepted = true) (hst : st.start = i) :
    ∃ w, (as.ways q 0 i noCaps).head? = some w ∧ Reports as st i w := by
  obtain ⟨w, h1, ⟨h2, h3⟩, h4⟩ := h
  refine ⟨w, h1, ?_, fun n hn => ?_⟩
  · simp [getGroup, toView, ha, hst, h2]
  · simp only [getGroup, Nat.add_one_ne_zero, if_false, Nat.add_sub_cancel]
    exact h3 n (by omega)

/-- Among the ways to match `as` in `q` that begin at or after `frm`, `s` is where the leftmost ones begin, and `w` is the best of these. -/
def PreferredWay (q : List Int) (as : Alts) (frm s : Nat) (w : Way) : Prop :=
  frm ≤ s ∧ (as.ways q 0 s noCaps).head? = some w ∧ ∀ x, frm ≤ x → x < s → as.ways q 0 x noCaps = []

/-- **C49 (partial).** Every pattern that meets the condition compiles, and matching it against any query (of `char` values, shorter than
2^32-1) reports what a backtracking matcher reports: the leftmost start and, there, the end and the captures of the best way.  If the
result is not accepted there is no match that begins at 0 or before the end of the query.  Missing: groups that are nested, or
that are repeated outside the condition, alternatives outside a group in which something follows a group, and the patterns for which it
is false. -/
theorem C49_captures_partial (as : Alts) (hr : as.capRegular = true) (hc : ∀ c ∈ as.spell, c ∈ allChars) :
    ∃ t, compile as.spell = some t ∧
      ∀ (cx : Ctx), (∀ c ∈ cx.query, c ∈ allChars) → cx.query.length < 4294967295 → (as.dollar = true → cx.post.head? = some 0) →
        ∀ (fuel : Nat), cx.query.length ≤ fuel → ∃ st, construct cx t fuel = .ok st ∧
          (st.accepted = true → ∃ s w, Reports as st s w ∧ PreferredWay cx.query as 0 s w) ∧
          (st.accepted = false → ∀ x, (x = 0 ∨ x < cx.query.length) → as.ways cx.query 0 x noCaps = []) := by
  cases as with
  | more hat s as =>
    obtain ⟨ts, ht, hrow⟩ := compile_row hr hc
    refine ⟨_, ht, fun cx hq hlen hn fuel hfuel => ?_⟩
    have ha := row_search hrow hr hlen hq hn
    rcases construct_good ha.good fuel with ⟨st, e1, hi⟩ | ⟨_, h2⟩
    · have hl := fresh_construct ha e1
      refine ⟨st, e1, fun hacc => ?_, fun hrej x hx => Classical.not_not.1 (hl.miss hrej x hx)⟩
      obtain ⟨b, s1, _, s2, s3⟩ := hl.hit hacc
      obtain ⟨w, w1, w2⟩ := told_reports s2 hacc s1
      refine ⟨b, w, w2, Nat.zero_le _, w1, fun x _ hx => ?_⟩
      cases hcx : (Alts.more hat s as).ways cx.query 0 x noCaps with
      | nil => rfl
      | cons y l => have := s3 x (by show (Alts.more hat s as).ways cx.query 0 x noCaps ≠ []; rw [hcx]; simp); omega
    · simp only [Ctx.qend] at h2; omega
  | last hat s =>
    have hsane : (Alts.last hat s).capSane = true := by simp only [Alts.capRegular, Bool.and_eq_true] at hr; exact hr.1
    obtain ⟨h1, h2, h3, _⟩ := sane_facts hsane
    obtain ⟨t, ht, hroot⟩ := compile_root hat s h1 h2 h3 hc
    refine ⟨t, ht, fun cx hq hlen hn fuel hfuel => ?_⟩
    have ha := regular_search hroot (Or.inl rfl) hr hlen hq hn
    rcases construct_good ha.good fuel with ⟨st, e1, hi⟩ | ⟨_, h2⟩
    · have hl := construct_left ha e1
      refine ⟨st, e1, fun hacc => ?_, fun hrej x hx => (ways_nil h1 ..).2 (by simpa using hl.miss hrej x hx)⟩
      obtain ⟨b, s1, _, s2, s3⟩ := hl.hit hacc
      obtain ⟨w, w1, w2⟩ := right_reports h1 s2 hacc s1
      refine ⟨b, w, w2, Nat.zero_le _, w1, fun x _ hx => (ways_nil h1 ..).2 ?_⟩
      cases hcx : capsAt cx.query hat s x with
      | nil => rfl
      | cons y l => have := s3 x (by rw [hcx]; simp); omega
    · simp only [Ctx.qend] at h2; omega

/-- The search from any position. -/
theorem cap_from (as : Alts) (hr : as.capRegular = true) (hc : ∀ c ∈ as.spell, c ∈ allChars) :
    ∃ t, compile as.spell = some t ∧
      ∀ (cx : Ctx), (∀ c ∈ cx.query, c ∈ allChars) → cx.query.length < 4294967295 → (as.dollar = true → cx.post.head? = some 0) →
        (∀ st, Reach cx t st → 0 ≤ st.pos ∧ st.pos ≤ cx.qend + 1) ∧
        ∀ (fuel : Nat), cx.query.length ≤ fuel → ∀ (st : St) (i : Nat), st.pos = i → st.pos ≤ cx.qend + 1 →
          ∃ st', next cx t fuel st = .ok st' ∧
            (st'.accepted = true → ∃ s w, Reports as st' s w ∧ PreferredWay cx.query as i s w) ∧
            (st'.accepted = false → ∀ x, i ≤ x → x < cx.query.length → as.ways cx.query 0 x noCaps = []) := by
  cases as with
  | more hat s as =>
    obtain ⟨ts, ht, hrow⟩ := compile_row hr hc
    refine ⟨_, ht, fun cx hq hlen hn => ?_⟩
    have ha := row_search hrow hr hlen hq hn
    refine ⟨fun st hreach => inv_pos (reach_inv ha.good hreach), fun fuel hfuel st i hpos hle => ?_⟩
    have h0 : 0 ≤ st.pos := by omega
    rcases next_good ha.good fuel st h0 hle with ⟨st', e1, hi⟩ | ⟨_, h2⟩
    · have hl := fresh_next ha h0 e1
      have hoff : off st = i := by unfold off; omega
      rw [hoff] at hl
      refine ⟨st', e1, fun hacc => ?_, fun hrej x hx1 hx2 => Classical.not_not.1 (hl.miss hrej x hx1 hx2)⟩
      obtain ⟨b, s1, s2, _, s3, s4⟩ := hl.hit hacc
      obtain ⟨w, w1, w2⟩ := told_reports s3 hacc s1
      refine ⟨b, w, w2, s2, w1, fun x hx hlt => ?_⟩
      cases hcx : (Alts.more hat s as).ways cx.query 0 x noCaps with
      | nil => rfl
      | cons y l => have := s4 x hx (by show (Alts.more hat s as).ways cx.query 0 x noCaps ≠ []; rw [hcx]; simp); omega
    · simp only [Ctx.qend] at h2; omega
  | last hat s =>
    have hsane : (Alts.last hat s).capSane = true := by simp only [Alts.capRegular, Bool.and_eq_true] at hr; exact hr.1
    obtain ⟨h1, h2, h3, _⟩ := sane_facts hsane
    obtain ⟨t, ht, hroot⟩ := compile_root hat s h1 h2 h3 hc
    refine ⟨t, ht, fun cx hq hlen hn => ?_⟩
    have ha := regular_search hroot (Or.inl rfl) hr hlen hq hn
    refine ⟨fun st hreach => inv_pos (reach_inv ha.good hreach), fun fuel hfuel st i hpos hle => ?_⟩
    have h0 : 0 ≤ st.pos := by omega
    rcases next_good ha.good fuel st h0 hle with ⟨st', e1, hi⟩ | ⟨_, h2⟩
    · have hl := next_left ha h0 e1
      have hoff : off st = i := by unfold off; omega
      rw [hoff] at hl
      refine ⟨st', e1, fun hacc => ?_, fun hrej x hx1 hx2 => (ways_nil h1 ..).2 (by simpa using hl.miss hrej x hx1 hx2)⟩
      obtain ⟨b, s1, s2, _, s3, s4⟩ := hl.hit hacc
      obtain ⟨w, w1, w2⟩ := right_reports h1 s3 hacc s1
      refine ⟨b, w, w2, s2, w1, fun x hx hlt => (ways_nil h1 ..).2 ?_⟩
      cases hcx : capsAt cx.query hat s x with
      | nil => rfl
      | cons y l => have := s4 x hx (by rw [hcx]; simp); omega
    · simp only [Ctx.qend] at h2; omega

/-- **C49 (partial).** The same for `next()` on any accepted result obtained so far: the best way to match among those that begin at or
after the end of the previous match, and failure only if none begins before the end of the query. -/
theorem C49_next_partial (as : Alts) (hr : as.capRegular = true) (hc : ∀ c ∈ as.spell, c ∈ allChars) :
    ∃ t, compile as.spell = some t ∧
      ∀ (cx : Ctx), (∀ c ∈ cx.query, c ∈ allChars) → cx.query.length < 4294967295 → (as.dollar = true → cx.post.head? = some 0) →
        ∀ (fuel : Nat), cx.query.length ≤ fuel → ∀ (st : St), Reach cx t st → ∀ f i : Nat, toView st = some ((f : Int), (i : Int)) →
          ∃ st', next cx t fuel st = .ok st' ∧
            (st'.accepted = true → ∃ s w, Reports as st' s w ∧ PreferredWay cx.query as i s w) ∧
            (st'.accepted = false → ∀ x, i ≤ x → x < cx.query.length → as.ways cx.query 0 x noCaps = []) := by
  obtain ⟨t, ht, hall⟩ := cap_from as hr hc
  refine ⟨t, ht, fun cx hq hlen hn fuel hfuel st hreach f i hv => ?_⟩
  obtain ⟨h1, h2⟩ := hall cx hq hlen hn
  exact h2 fuel hfuel st i (view_pos hv) (h1 st hreach).2

/-- **C49 (partial).** Under the weaker condition, which does not restrict how the pattern begins (the search may skip a match): every
accepted result a program can obtain, by matching and then any number of `next()`, reports the best of the ways to match that begin
where the result begins; and if the pattern can match from the start of the query on, matching reports the best of these. -/
theorem C49_own_start_partial (as : Alts) (hr : as.capSane = true) (hc : ∀ c ∈ as.spell, c ∈ allChars) :
    ∃ t, compile as.spell = some t ∧
      ∀ (cx : Ctx), (∀ c ∈ cx.query, c ∈ allChars) → cx.query.length < 4294967295 → (as.dollar = true → cx.post.head? = some 0) →
        (∀ st, Reach cx t st → st.accepted = true → ∃ s w, Reports as st s w ∧ (as.ways cx.query 0 s noCaps).head? = some w) ∧
        (∀ w, (as.ways cx.query 0 0 noCaps).head? = some w → ∀ (fuel : Nat), cx.query.length ≤ fuel →
          ∃ st, construct cx t fuel = .ok st ∧ Reports as st 0 w) := by
  cases as with
  | more hat s as =>
    obtain ⟨ts, ht, hrow⟩ := compile_row hr hc
    refine ⟨_, ht, fun cx hq hlen hn => ?_⟩
    have ha := row_search hrow hr hlen hq hn
    refine ⟨fun st hreach hacc => ?_, fun w hw fuel hfuel => ?_⟩
    · cases hreach with
      | make e =>
        obtain ⟨b, hb, _, hr, _⟩ := (fresh_construct ha e).hit hacc
        obtain ⟨w, w1, w2⟩ := told_reports hr hacc hb
        exact ⟨b, w, w2, w1⟩
      | next hreach e =>
        obtain ⟨b, hb, _, _, hr, _⟩ := (fresh_next ha (inv_pos (reach_inv ha.good hreach)).1 e).hit hacc
        obtain ⟨w, w1, w2⟩ := told_reports hr hacc hb
        exact ⟨b, w, w2, w1⟩
    · rcases construct_good ha.good fuel with ⟨st, e1, hi⟩ | ⟨_, h2⟩
      · have hl := fresh_construct ha e1
        have hne : (Alts.more hat s as).ways cx.query 0 0 noCaps ≠ [] := by
          intro h; rw [h] at hw; simp at hw
        cases hacc : st.accepted with
        | false => exact absurd hne (hl.miss hacc 0 (Or.inl rfl))
        | true =>
          obtain ⟨b, hb, _, hr, hmin⟩ := hl.hit hacc
          have hb0 : b = 0 := Nat.le_zero.1 (hmin 0 hne)
          subst hb0
          obtain ⟨w', w1, w2⟩ := told_reports hr hacc hb
          rw [hw] at w1
          cases w1
          exact ⟨st, e1, w2⟩
      · simp only [Ctx.qend] at h2; omega
  | last hat s =>
    obtain ⟨h1, h2, h3, _⟩ := sane_facts hr
    obtain ⟨t, ht, hroot⟩ := compile_root hat s h1 h2 h3 hc
    refine ⟨t, ht, fun cx hq hlen hn => ?_⟩
    have hs := sane_safe hroot (Or.inl rfl) hn
    have hat' : ∀ L p st st', 0 ≤ L → L ≤ p → Good cx ⟨L, p, groupsOf t, fun _ _ _ => True⟩ st → st.start = st.pos →
        (st.accepted = true ∨ st.pos < cx.qend) → run cx t [] st = some st' → RightAt cx.query hat s (off st) st' :=
      fun L p st st' _ _ hg _ hacc e => sane_attempt hroot (Or.inl rfl) hr hlen hq hn hg hacc e
    refine ⟨fun st hreach hacc => ?_, fun w hw fuel hfuel => ?_⟩
    · cases hreach with
      | make e =>
        obtain ⟨b, hb, hr⟩ := (construct_hit hs hat' e).1 hacc
        obtain ⟨w, w1, w2⟩ := right_reports h1 hr hacc hb
        exact ⟨b, w, w2, w1⟩
      | next hreach e =>
        obtain ⟨b, hb, _, hr⟩ := next_hit hs hat' (inv_pos (reach_inv hs hreach)).1 e hacc
        obtain ⟨w, w1, w2⟩ := right_reports h1 hr hacc hb
        exact ⟨b, w, w2, w1⟩
    · rcases construct_good hs fuel with ⟨st, e1, hi⟩ | ⟨_, h2⟩
      · obtain ⟨_, st1, e2, hr1, heq⟩ := construct_hit hs hat' e1
        have hne : capsAt cx.query hat s 0 ≠ [] := by
          intro h
          rw [(ways_nil h1 ..).2 h] at hw; simp at hw
        have hacc := (agreesC_yes hr1).2 hne
        have := heq hacc
        subst this
        have hst : st.start = (0 : Nat) := by
          have hg : Good cx ⟨0, 0, groupsOf t, fun _ _ _ => True⟩ (initSt t) :=
            ⟨rfl, ⟨by simp, by simp⟩, ⟨by simp [initSt], by simp [initSt, Ctx.qend]⟩, by simp [initSt], replicate_views cx _ _, fun _ _ _ _ => trivial⟩
          have := ((hs 0 0 (by omega) (by omega)).get hg e2).start
          simpa using this
        obtain ⟨w', w1, w2⟩ := right_reports h1 hr1 hacc hst
        rw [hw] at w1
        cases w1
        exact ⟨st, e1, w2⟩
      · simp only [Ctx.qend] at h2; omega

/-- The contents of the capturing groups that are not nested, from left to right. -/
def seqGroups : Sq → List Alts
  | .nil _ => []
  | .cons (.group true as) _ s => as :: seqGroups s
  | .cons _ _ s => seqGroups s

/-- The contents of the groups of a pattern, from left to right. -/
def outerGroups : Alts → List Alts
  | .last _ s => seqGroups s
  | .more _ s as => seqGroups s ++ outerGroups as

theorem caps_groups : ∀ (q : List Int) (s : Sq), shallow s = true → ∀ (i : Nat) (r : Nat × List (Nat × Nat)), r ∈ caps q s i →
    ∀ (n : Nat) (c : Alts), (seqGroups s)[n]? = some c → ∃ x, r.2[n]? = some x ∧ x.2 ∈ c.picks q x.1
  | q, .nil d, _, i, r, hr, n, c, hn => by simp [seqGroups] at hn
  | q, .cons (.group capture as) k s, h, i, r, hr, n, c, hn => by
    have hsh := shallow_group h
    simp only [caps, List.mem_flatMap, List.mem_map] at hr
    obtain ⟨e, he, r', hr', rfl⟩ := hr
    cases capture with
    | false => simpa using caps_groups q s hsh.2.1 e.2 r' hr' n c (by simpa [seqGroups] using hn)
    | true =>
      cases n with
      | zero =>
        simp only [seqGroups, List.getElem?_cons_zero, Option.some.injEq] at hn
        subst hn
        exact ⟨e, by simp, spans_body (rep_last h).1 he⟩
      | succ n => simpa using caps_groups q s hsh.2.1 e.2 r' hr' n c (by simpa [seqGroups] using hn)
  | q, .cons (.chr _) k s, h, i, r, hr, n, c, hn | q, .cons (.esc _) k s, h, i, r, hr, n, c, hn
  | q, .cons .dot k s, h, i, r, hr, n, c, hn | q, .cons (.hex ..) k s, h, i, r, hr, n, c, hn
  | q, .cons (.oct ..) k s, h, i, r, hr, n, c, hn | q, .cons (.cls ..) k s, h, i, r, hr, n, c, hn => by
    simp only [shallow, Bool.and_eq_true] at h
    simp only [caps, List.mem_flatMap] at hr
    obtain ⟨m, _, hr⟩ := hr
    exact caps_groups q s h.2 _ r hr n c (by simpa [seqGroups] using hn)

theorem count_groups : ∀ s : Sq, shallow s = true → (seqGroups s).length = s.count
  | .nil _, _ => rfl
  | .cons (.group capture as) k s, h => by
    have h := shallow_group h
    have hc := (alts_ways as h.1 [] 0 0 (fun _ => none)).2
    have := count_groups s h.2.1
    cases capture <;> simp only [seqGroups, Sq.count, Atom.count, List.length_cons] <;> simp <;> omega
  | .cons (.chr _) k s, h | .cons (.esc _) k s, h | .cons .dot k s, h | .cons (.hex ..) k s, h | .cons (.oct ..) k s, h
  | .cons (.cls ..) k s, h => by
    simp only [shallow, Bool.and_eq_true] at h
    simpa [seqGroups, Sq.count, Atom.count] using count_groups s h.2

theorem count_outer : ∀ as : Alts, (∀ s ∈ as.list, s.capOk = true) → (outerGroups as).length = as.count
  | .last _ s, h => count_groups s (capOk_shallow s (h s (by simp [Alts.list])))
  | .more _ s as, h => by
    have h1 := count_groups s (capOk_shallow s (h s (by simp [Alts.list])))
    have h2 := count_outer as (fun s hs => h s (by simp [Alts.list, hs]))
    simp only [outerGroups, Alts.count, List.length_append]; omega

/-- In every way, what the `k`-th group captured is matched by the content of the group. -/
theorem ways_groups : ∀ (as : Alts), (∀ s ∈ as.list, s.capOk = true) → ∀ (q : List Int) (n i : Nat) (w : Way), w ∈ as.ways q n i noCaps →
    ∀ (k : Nat) (c : Alts) (x : Nat × Nat), (outerGroups as)[k]? = some c → w.2 (n + k) = some x → x.2 ∈ c.picks q x.1 := by
  have one : ∀ (hat : Bool) (s : Sq), s.capOk = true → ∀ (q : List Int) (n i : Nat) (w : Way),
      w ∈ (if hat && i != 0 then [] else s.ways q n i noCaps) → ∀ (k : Nat) (x : Nat × Nat), w.2 (n + k) = some x →
        k < s.count ∧ ∀ c, (seqGroups s)[k]? = some c → x.2 ∈ c.picks q x.1 := by
    intro hat s h q n i w hw k x hx
    obtain ⟨r, hr, rfl⟩ := alt_way h hw
    obtain ⟨j, hj, hx⟩ := fill_some hx
    obtain rfl : k = j := by omega
    have hl := cap_length q s (capOk_shallow s h) i r hr
    obtain ⟨hlt, _⟩ := List.getElem?_eq_some_iff.1 hx
    refine ⟨by omega, fun c hc => ?_⟩
    obtain ⟨y, hy, hp⟩ := caps_groups q s (capOk_shallow s h) i r hr k c hc
    rw [hx] at hy; cases hy
    exact hp
  intro as
  induction as using Alts.rec (motive_1 := fun _ => True) (motive_2 := fun _ => True) with
  | last hat s _ => intro h q n i w hw k c x hc hx; exact (one hat s (h s (by simp [Alts.list])) q n i w hw k x hx).2 c hc
  | more hat s as _ ih =>
    intro h q n i w hw k c x hc hx
    have hs := h s (by simp [Alts.list])
    have has : ∀ s ∈ as.list, s.capOk = true := fun s hs => h s (by simp [Alts.list, hs])
    have hcount := count_groups s (capOk_shallow s hs)
    simp only [outerGroups] at hc
    rw [List.getElem?_append] at hc
    simp only [Alts.ways, List.mem_append] at hw
    rcases hw with hw | hw
    · obtain ⟨h1, h2⟩ := one hat s hs q n i w hw k x hx
      rw [if_pos (by omega)] at hc
      exact h2 c hc
    · split at hc
      · rename_i hlt
        by_cases hin : n + k < n + s.count
        · exact absurd hx (by
            intro hx
            have hlow : ∀ (as : Alts), (∀ s ∈ as.list, s.capOk = true) → ∀ (m : Nat) (w : Way), w ∈ as.ways q m i noCaps → ∀ k x, w.2 k = some x → m ≤ k := by
              intro as
              induction as using Alts.rec (motive_1 := fun _ => True) (motive_2 := fun _ => True) with
              | last hat s _ =>
                intro h m w hw k x hx
                obtain ⟨r, _, rfl⟩ := alt_way (h s (by simp [Alts.list])) hw
                obtain ⟨j, rfl, _⟩ := fill_some hx
                omega
              | more hat s as _ ih =>
                intro h m w hw k x hx
                simp only [Alts.ways, List.mem_append] at hw
                rcases hw with hw | hw
                · obtain ⟨r, _, rfl⟩ := alt_way (h s (by simp [Alts.list])) hw
                  obtain ⟨j, rfl, _⟩ := fill_some hx
                  omega
                · have := ih (fun s hs => h s (by simp [Alts.list, hs])) _ w hw k x hx
                  omega
              | _ => trivial
            have := hlow as has _ w hw _ x hx
            omega)
        · omega
      · rename_i hge
        rw [hcount] at hc hge
        exact ih has q (n + s.count) i w hw (k - s.count) c x hc (by rw [show n + s.count + (k - s.count) = n + k by omega]; exact hx)
  | _ => trivial

/-- **C11 (partial).** For every pattern that meets the condition of C49, in every accepted result a program can obtain, `result[n + 1]`
is empty or a part of the query that the content of the `n`-th capturing group of the pattern, counted from the left, matches; and in a
pattern of one alternative it is not empty.  Missing: groups that are nested, and the patterns for which it is false (below and
`C11_refuted_…`). -/
theorem C11_result_is_nth_group_partial (as : Alts) (hr : as.capSane = true) (hc : ∀ c ∈ as.spell, c ∈ allChars) :
    (outerGroups as).length = as.count ∧ ∃ t, compile as.spell = some t ∧
      ∀ (cx : Ctx), (∀ c ∈ cx.query, c ∈ allChars) → cx.query.length < 4294967295 → (as.dollar = true → cx.post.head? = some 0) →
        ∀ st, Reach cx t st → st.accepted = true → ∀ (n : Nat) (content : Alts), (outerGroups as)[n]? = some content →
          ((as.list.length ≠ 1 ∧ getGroup st (n + 1) = some none) ∨
            ∃ a b : Nat, getGroup st (n + 1) = some (some ((a : Int), (b : Int))) ∧ b ∈ content.picks cx.query a) := by
  have hall := sane_alts as hr
  refine ⟨count_outer as hall, ?_⟩
  obtain ⟨t, ht, hown⟩ := C49_own_start_partial _ hr hc
  refine ⟨t, ht, fun cx hq hlen hn st hreach hacc n c hg => ?_⟩
  obtain ⟨b, w, ⟨h2, h3⟩, h4⟩ := (hown cx hq hlen hn).1 st hreach hacc
  have hw := List.mem_of_mem_head? h4
  have hlt : n < as.count := by
    rw [← count_outer as hall]
    exact (List.getElem?_eq_some_iff.1 hg).1
  rw [h3 n hlt]
  cases hx : w.2 n with
  | some x => exact Or.inr ⟨x.1, x.2, rfl, ways_groups as hall cx.query 0 b w hw n c x hg (by rw [Nat.zero_add]; exact hx)⟩
  | none =>
    cases as with
    | more hat s as =>
      have : as.list ≠ [] := by cases as <;> simp [Alts.list]
      exact Or.inl ⟨by simpa [Alts.list] using this, rfl⟩
    | last hat s =>
      exfalso
      have h1 := hall s (by simp [Alts.list])
      obtain ⟨r, hr', rfl⟩ := alt_way h1 hw
      have hl := cap_length cx.query s (capOk_shallow s h1) b r hr'
      simp only [Alts.count] at hlt
      have hf := fill_at r.2 noCaps 0 n (by omega)
      rw [Nat.zero_add] at hf
      simp only [hf, List.getElem?_eq_none_iff] at hx
      omega

/-! ## the hypotheses are met -/

private def a (c : Char) : Atom := .chr c.toNat
private def sq (l : List (Atom × Quant)) (dollar : Bool) : Sq := l.foldr (fun x s => .cons x.1 x.2 s) (.nil dollar)
private def grp (b : Sq) : Atom := .group true (.last false b)
private def word : Atom := .esc 119
private def digit : Atom := .esc 100

/-- The ways to match, with the captures as a list. -/
def shownWays (as : Alts) (q : String) (i : Nat) : List (Nat × List (Option (Nat × Nat))) :=
  (as.ways (str q) 0 i noCaps).map (fun w => (w.1, (List.range as.count).map w.2))

/-- `^(\w+)=(\d+)$` -/
def assignPattern : Alts :=
  .last true (sq [(grp (sq [(word, .plus .greedy)] false), .once), (a '=', .once), (grp (sq [(digit, .plus .greedy)] false), .once)] true)
example : assignPattern.capRegular = true ∧ assignPattern.spell = str "^(\\w+)=(\\d+)$" ∧ (∀ c ∈ assignPattern.spell, c ∈ allChars) ∧
    assignPattern.dollar = true := by decide +kernel
example : shownWays assignPattern "ab=12" 0 = [(5, [some (0, 2), some (3, 5)])] ∧
    m "^(\\w+)=(\\d+)$" "ab=12" = some [some "ab=12", some "ab", some "12"] := by decide +kernel

/-- `x(\d+)-(a|b)c` -/
def choicePattern : Alts :=
  .last false (sq [(a 'x', .once), (grp (sq [(digit, .plus .greedy)] false), .once), (a '-', .once),
    (.group true (.more false (sq [(a 'a', .once)] false) (.last false (sq [(a 'b', .once)] false))), .once), (a 'c', .once)] false)
example : choicePattern.capRegular = true ∧ choicePattern.spell = str "x(\\d+)-(a|b)c" ∧ ∀ c ∈ choicePattern.spell, c ∈ allChars := by
  decide +kernel
example : shownWays choicePattern "zx12-bc" 1 = [(7, [some (2, 4), some (5, 6)])] ∧
    m "x(\\d+)-(a|b)c" "zx12-bc" = some [some "x12-bc", some "12", some "b"] := by decide +kernel

/-- `x(none|not|no):(\\w+)`: alternatives that begin alike. -/
private def alikePattern : Alts := .last false (.cons (.chr 120) .once (.cons (.group true
  (.more false (sq [(.chr 110, .once), (.chr 111, .once), (.chr 110, .once), (.chr 101, .once)] false)
    (.more false (sq [(.chr 110, .once), (.chr 111, .once), (.chr 116, .once)] false) (.last false (sq [(.chr 110, .once), (.chr 111, .once)] false))))) .once
  (.cons (.chr 58) .once (.cons (.group true (.last false (sq [(word, .plus .greedy)] false))) .once (.nil false)))))
example : alikePattern.capRegular = true ∧ alikePattern.spell = str "x(none|not|no):(\\w+)" ∧ ∀ c ∈ alikePattern.spell, c ∈ allChars := by
  decide +kernel
example : shownWays alikePattern "xxno:a" 1 = [(6, [some (2, 4), some (5, 6)])] ∧
    m "x(none|not|no):(\\w+)" "xxno:a" = some [some "xno:a", some "no", some "a"] ∧ m "x(none|not|no):(\\w+)" "xnone:a" = some [some "xnone:a", some "none", some "a"] := by decide +kernel

/-- `(\w+)@(\w+)\.(com|it)` -/
def addressPattern : Alts :=
  .last false (sq [(grp (sq [(word, .plus .greedy)] false), .once), (a '@', .once), (grp (sq [(word, .plus .greedy)] false), .once),
    (.esc 46, .once), (.group true (.more false (sq [(a 'c', .once), (a 'o', .once), (a 'm', .once)] false)
      (.last false (sq [(a 'i', .once), (a 't', .once)] false))), .once)] false)
example : addressPattern.capRegular = true ∧ addressPattern.spell = str "(\\w+)@(\\w+)\\.(com|it)" ∧
    ∀ c ∈ addressPattern.spell, c ∈ allChars := by decide +kernel
example : shownWays addressPattern "me@x.it" 0 = [(7, [some (0, 2), some (3, 4), some (5, 7)])] ∧
    m "(\\w+)@(\\w+)\\.(com|it)" "me@x.it" = some [some "me@x.it", some "me", some "x", some "it"] := by decide +kernel

example : outerGroups addressPattern = [.last false (sq [(word, .plus .greedy)] false), .last false (sq [(word, .plus .greedy)] false),
    .more false (sq [(a 'c', .once), (a 'o', .once), (a 'm', .once)] false) (.last false (sq [(a 'i', .once), (a 't', .once)] false))] := rfl

/-- `x(.*)a`: the group gives back, and there is more than one way. -/
def giveBackPattern : Alts := .last false (sq [(a 'x', .once), (grp (sq [(.dot, .star .greedy)] false), .once), (a 'a', .once)] false)
example : giveBackPattern.capRegular = true ∧ giveBackPattern.spell = str "x(.*)a" ∧
    shownWays giveBackPattern "xabab" 0 = [(4, [some (1, 3)]), (2, [some (1, 1)])] ∧
    m "x(.*)a" "xabab" = some [some "xaba", some "ab"] := by decide +kernel

/-- `<(.*?)>` -/
def tagPattern : Alts := .last false (sq [(a '<', .once), (grp (sq [(.dot, .star .lazy)] false), .once), (a '>', .once)] false)
example : tagPattern.capRegular = true ∧ tagPattern.spell = str "<(.*?)>" ∧
    shownWays tagPattern "<a><b>" 0 = [(3, [some (1, 2)]), (6, [some (1, 5)])] ∧
    m "<(.*?)>" "<a><b>" = some [some "<a>", some "a"] := by decide +kernel

/-- `(\d\d)-(\d\d)`: meets only the weaker condition. -/
def timePattern : Alts :=
  .last false (sq [(grp (sq [(digit, .once), (digit, .once)] false), .once), (a '-', .once), (grp (sq [(digit, .once), (digit, .once)] false), .once)] false)
example : timePattern.capSane = true ∧ timePattern.capRegular = false ∧ timePattern.spell = str "(\\d\\d)-(\\d\\d)" ∧
    (∀ c ∈ timePattern.spell, c ∈ allChars) ∧ shownWays timePattern "12-34" 0 = [(5, [some (0, 2), some (3, 5)])] ∧
    m "(\\d\\d)-(\\d\\d)" "12-34" = some [some "12-34", some "12", some "34"] := by decide +kernel

private def non (b : Sq) : Atom := .group false (.last false b)

/-- `x(ab)+c`: the last repetition is reported. -/
def repeatPattern : Alts := .last false (sq [(a 'x', .once), (grp (sq [(a 'a', .once), (a 'b', .once)] false), .plus .greedy), (a 'c', .once)] false)
example : repeatPattern.capRegular = true ∧ repeatPattern.spell = str "x(ab)+c" ∧ (∀ c ∈ repeatPattern.spell, c ∈ allChars) ∧
    shownWays repeatPattern "zxababc" 1 = [(7, [some (4, 6)])] ∧ m "x(ab)+c" "zxababc" = some [some "xababc", some "ab"] := by decide +kernel

/-- `^(?:\d\d:){2}(\d{2})$` -/
def clockPattern : Alts := .last true (sq [(non (sq [(digit, .once), (digit, .once), (a ':', .once)] false), .exact [50] .greedy),
  (grp (sq [(digit, .exact [50] .greedy)] false), .once)] true)
example : clockPattern.capRegular = true ∧ clockPattern.spell = str "^(?:\\d\\d:){2}(\\d{2})$" ∧ (∀ c ∈ clockPattern.spell, c ∈ allChars) ∧
    shownWays clockPattern "12:34:56" 0 = [(8, [some (6, 8)])] ∧
    m "^(?:\\d\\d:){2}(\\d{2})$" "12:34:56" = some [some "12:34:56", some "56"] := by decide +kernel

/-- `\d+(?:\.\d+)?` -/
def numberPattern : Alts := .last false (sq [(digit, .plus .greedy), (non (sq [(.esc 46, .once), (digit, .plus .greedy)] false), .opt .greedy)] false)
example : numberPattern.capRegular = true ∧ numberPattern.spell = str "\\d+(?:\\.\\d+)?" ∧ (∀ c ∈ numberPattern.spell, c ∈ allChars) ∧
    shownWays numberPattern "v3.14" 1 = [(5, []), (4, []), (2, [])] ∧ m "\\d+(?:\\.\\d+)?" "v3.14" = some [some "3.14"] := by decide +kernel

/-- `(\w+)(?:-\w+)*` -/
def slugPattern : Alts :=
  .last false (sq [(grp (sq [(word, .plus .greedy)] false), .once), (non (sq [(a '-', .once), (word, .plus .greedy)] false), .star .greedy)] false)
example : slugPattern.capRegular = true ∧ slugPattern.spell = str "(\\w+)(?:-\\w+)*" ∧ (∀ c ∈ slugPattern.spell, c ∈ allChars) ∧
    (shownWays slugPattern "a-b-cd e" 0).head? = some (6, [some (0, 1)]) ∧
    m "(\\w+)(?:-\\w+)*" "a-b-cd e" = some [some "a-b-cd", some "a"] := by decide +kernel

/-- `^(a|b){2,3}c` -/
def someOfPattern : Alts :=
  .last true (sq [(.group true (.more false (sq [(a 'a', .once)] false) (.last false (sq [(a 'b', .once)] false))), .between [50] [51] .greedy), (a 'c', .once)] false)
example : someOfPattern.capRegular = true ∧ someOfPattern.spell = str "^(a|b){2,3}c" ∧ (∀ c ∈ someOfPattern.spell, c ∈ allChars) ∧
    shownWays someOfPattern "abac" 0 = [(4, [some (2, 3)])] ∧ m "^(a|b){2,3}c" "abac" = some [some "abac", some "a"] := by decide +kernel

/-! ## where it is false -/

/-- `x(a)?b` -/
def stalePattern : Alts := .last false (sq [(a 'x', .once), (grp (sq [(a 'a', .once)] false), .opt .greedy), (a 'b', .once)] false)
/-- **C49 is false of `x(a)?b`**: the only match in `xacxb` is `xb`, in which the group has no part, and the library reports `a` for it:
the text the group matched in the failed attempt at offset 0. -/
theorem C49_refuted_stale : stalePattern.spell = str "x(a)?b" ∧ stalePattern.capSane = false ∧ shownWays stalePattern "xacxb" 0 = [] ∧
    shownWays stalePattern "xacxb" 3 = [(5, [none])] ∧ m "x(a)?b" "xacxb" = some [some "xb", some "a"] := by decide +kernel

/-- **C49 is false of `<(\w+)(\s+\w+=\w+)*>`**: the tag `<d>` has no attributes, and the library reports those of the tag in front of it, which is not closed. -/
theorem C49_refuted_stale_tag : m "<(\\w+)(\\s+\\w+=\\w+)*>" "<d>" = some [some "<d>", some "d", some ""] ∧
    m "<(\\w+)(\\s+\\w+=\\w+)*>" "<a b=c <d>" = some [some "<d>", some "d", some " b=c"] := by decide +kernel

/-- `^(ab?)+b` -/
def eagerPattern : Alts := .last true (sq [(grp (sq [(a 'a', .once), (a 'b', .opt .greedy)] false), .plus .greedy), (a 'b', .once)] false)
/-- **C49 is false of `^(ab?)+b`**: a repetition gives nothing back. -/
theorem C49_refuted_repeat : eagerPattern.spell = str "^(ab?)+b" ∧ eagerPattern.capSane = false ∧
    shownWays eagerPattern "abab" 0 = [(4, [some (2, 3)]), (2, [some (0, 1)])] ∧ m "^(ab?)+b" "abab" = none := by decide +kernel

/-- **C49 is false of `(\d\d)-(\d\d)`**: there is a match in `112-34`, from offset 1 on, and the library finds none: the search
goes on behind the `11`. -/
theorem C49_refuted_skipped : shownWays timePattern "112-34" 1 = [(6, [some (1, 3), some (4, 6)])] ∧
    m "(\\d\\d)-(\\d\\d)" "112-34" = none := by decide +kernel

/-- `(a)[b](c)` -/
def slotPattern : Alts :=
  .last false (sq [(grp (sq [(a 'a', .once)] false), .once), (.cls false [.chr 98] false, .once), (grp (sq [(a 'c', .once)] false), .once)] false)
/-- **C49 is false of `(a)[b](c)`**: both groups have the number 1. -/
theorem C49_refuted_slot : slotPattern.spell = str "(a)[b](c)" ∧ slotPattern.capSane = false ∧
    shownWays slotPattern "abc" 0 = [(3, [some (0, 1), some (2, 3)])] ∧
    m "(a)[b](c)" "abc" = some [some "abc", some "c", some ""] := by decide +kernel

/-- `((a)b)(c)` -/
def nestedPattern : Alts :=
  .last false (sq [(grp (sq [(grp (sq [(a 'a', .once)] false), .once), (a 'b', .once)] false), .once), (grp (sq [(a 'c', .once)] false), .once)] false)
/-- **C49 is false of `((a)b)(c)`**: the group behind a nested one gets the number of the nested one. -/
theorem C49_refuted_nested : nestedPattern.spell = str "((a)b)(c)" ∧
    shownWays nestedPattern "abc" 0 = [(3, [some (0, 2), some (0, 1), some (2, 3)])] ∧
    m "((a)b)(c)" "abc" = some [some "abc", some "ab", some "c", some ""] := by decide +kernel

/-- `x(a|ab)c` -/
def atomicPattern : Alts :=
  .last false (sq [(a 'x', .once), (.group true (.more false (sq [(a 'a', .once)] false) (.last false (sq [(a 'a', .once), (a 'b', .once)] false))), .once),
    (a 'c', .once)] false)
/-- **C49 is false of `x(a|ab)c`**: the group does not try its second alternative when `c` does not follow the first. -/
theorem C49_refuted_atomic : atomicPattern.spell = str "x(a|ab)c" ∧ shownWays atomicPattern "xabc" 0 = [(4, [some (1, 3)])] ∧
    m "x(a|ab)c" "xabc" = none := by decide +kernel

/-! Several alternatives. -/

/-- `(\d+)|([a-z]+)` -/
def tokenPattern : Alts := .more false (sq [(grp (sq [(digit, .plus .greedy)] false), .once)] false)
  (.last false (sq [(grp (sq [(.cls false [.rng 97 122] false, .plus .greedy)] false), .once)] false))
example : tokenPattern.capRegular = true ∧ tokenPattern.spell = str "(\\d+)|([a-z]+)" ∧ (∀ c ∈ tokenPattern.spell, c ∈ allChars) ∧ tokenPattern.count = 2 := by
  decide +kernel
example : shownWays tokenPattern "  ab 12" 2 = [(4, [none, some (2, 4)]), (3, [none, some (2, 3)])] ∧
    m "(\\d+)|([a-z]+)" "  ab 12" = some [some "ab", some "", some "ab"] ∧
    m "(\\d+)|([a-z]+)" "  12 ab" = some [some "12", some "12", some ""] := by decide +kernel

/-- `x(\d+)|y([a-z]+)|z(a|b)` -/
def recordPattern : Alts := .more false (sq [(a 'x', .once), (grp (sq [(digit, .plus .greedy)] false), .once)] false)
  (.more false (sq [(a 'y', .once), (grp (sq [(.cls false [.rng 97 122] false, .plus .greedy)] false), .once)] false)
    (.last false (sq [(a 'z', .once), (.group true (.more false (sq [(a 'a', .once)] false) (.last false (sq [(a 'b', .once)] false))), .once)] false)))
example : recordPattern.capRegular = true ∧ recordPattern.spell = str "x(\\d+)|y([a-z]+)|z(a|b)" ∧ ∀ c ∈ recordPattern.spell, c ∈ allChars := by decide +kernel
example : shownWays recordPattern "--zb" 2 = [(4, [none, none, some (3, 4)])] ∧
    m "x(\\d+)|y([a-z]+)|z(a|b)" "--zb" = some [some "zb", some "", some "", some "b"] := by decide +kernel

/-- `^a|#(\w+)` -/
def hashPattern : Alts := .more true (sq [(a 'a', .once)] false) (.last false (sq [(a '#', .once), (grp (sq [(word, .plus .greedy)] false), .once)] false))
example : hashPattern.capRegular = true ∧ hashPattern.spell = str "^a|#(\\w+)" ∧ ∀ c ∈ hashPattern.spell, c ∈ allChars := by decide +kernel
example : shownWays hashPattern "b#a" 1 = [(3, [some (2, 3)])] ∧ m "^a|#(\\w+)" "b#a" = some [some "#a", some "a"] := by decide +kernel

/-- `(a)b|c`: when the first alternative fails after its group has matched, the group keeps its text, and the match begins too early. -/
def lostPattern : Alts := .more false (sq [(grp (sq [(a 'a', .once)] false), .once), (a 'b', .once)] false) (.last false (sq [(a 'c', .once)] false))

theorem C49_refuted_alternative : lostPattern.spell = str "(a)b|c" ∧ lostPattern.capSane = false ∧ shownWays lostPattern "ac" 0 = [] ∧
    shownWays lostPattern "ac" 1 = [(2, [none])] ∧ m "(a)b|c" "ac" = some [some "ac", some "a"] := by decide +kernel

/-- `(a)|b|(c)`: the groups are numbered from the first one again behind an alternative without groups. -/
def renumberPattern : Alts := .more false (sq [(grp (sq [(a 'a', .once)] false), .once)] false)
  (.more false (sq [(a 'b', .once)] false) (.last false (sq [(grp (sq [(a 'c', .once)] false), .once)] false)))

theorem C49_refuted_renumbered : renumberPattern.spell = str "(a)|b|(c)" ∧ renumberPattern.capSane = false ∧
    shownWays renumberPattern "c" 0 = [(1, [none, some (0, 1)])] ∧ m "(a)|b|(c)" "c" = some [some "c", some "c", some ""] := by decide +kernel

/-- `(a)(c)x|(b)y`: the first group of the second alternative gets number 2 although the first alternative has two groups. -/
def secondPattern : Alts := .more false (sq [(grp (sq [(a 'a', .once)] false), .once), (grp (sq [(a 'c', .once)] false), .once), (a 'x', .once)] false)
  (.last false (sq [(grp (sq [(a 'b', .once)] false), .once), (a 'y', .once)] false))

theorem C49_refuted_second_alternative : secondPattern.spell = str "(a)(c)x|(b)y" ∧ secondPattern.capSane = false ∧
    shownWays secondPattern "by" 0 = [(2, [none, none, some (0, 1)])] ∧
    m "(a)(c)x|(b)y" "by" = some [some "by", some "", some "b", some ""] := by decide +kernel

end ERegex.Props

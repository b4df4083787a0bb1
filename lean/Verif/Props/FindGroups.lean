import Verif.Props.FindAll
/-!
# C50, C54 : finding all occurrences of a pattern with groups

`compile p` is the optimized tree that is run, `construct` the constructor of a match result, `next` its `next()`, `getGroup st n` is
`get_group(n)` / `operator[](n)`, `rangeFor` the loop `for (auto v : r)` over a match result.
-/
set_option autoImplicit false
namespace ERegex.Props
open ERegex ERegex.Spec
open ERegex.Conformance (lit m)

/-- The results that a program sees that matches once and then calls `next()` as long as the result is accepted. -/
inductive Results (cx : Ctx) (t : Node) (fuel : Nat) : St → List St → Prop
  | stop {st : St} : st.accepted = false → Results cx t fuel st []
  | step {st st' : St} {l : List St} : st.accepted = true → next cx t fuel st = .ok st' → Results cx t fuel st' l → Results cx t fuel st (st :: l)

/-- The results `sts` report the occurrences `l`, one by one: the text of each match and of each of the `n` groups. -/
inductive Listed (n : Nat) : List St → List (Nat × Nat × Caps) → Prop
  | nil : Listed n [] []
  | cons {st : St} {sts : List St} {s e : Nat} {c : Caps} {l : List (Nat × Nat × Caps)} :
      getGroup st 0 = some (some ((s : Int), (e : Int))) →
      (∀ k, k < n → getGroup st (k + 1) = some ((c k).map (fun x => ((x.1 : Int), (x.2 : Int))))) → Listed n sts l → Listed n (st :: sts) ((s, e, c) :: l)

/-- The pattern `p` (with `n` groups) compiles, and in every query (of `char` values, shorter than 2^32-1; if `dollar`, followed by a NUL) there
is the list of the occurrences described by `g`, such that matching and then calling `next()` until it fails reports them one by one, with
the texts of all groups, and a range-for over a result (whatever was done with it before) visits them, in order, and ends. -/
def FindsGroups (p : List Int) (n : Nat) (dollar : Bool) (g : List Int → Nat → Option (Nat × Caps)) : Prop :=
  ∃ t, compile p = some t ∧ ∀ (cx : Ctx), (∀ c ∈ cx.query, c ∈ allChars) → cx.query.length < 4294967295 → (dollar = true → cx.post.head? = some 0) →
    ∀ (fuel : Nat), cx.query.length ≤ fuel →
    ∃ l, ScanWith (g cx.query) cx.query.length 0 l ∧
      (∃ st sts, construct cx t fuel = .ok st ∧ Results cx t fuel st sts ∧ Listed n sts l) ∧
      ∀ r, rangeFor cx t fuel cx.query.length r = some (l.map (fun x => span (x.1, x.2.1)), true)

theorem takes_lt (q : List Int) : ∀ (s : Sq) (i : Nat) (r : Nat × List (Nat × Nat)), shallow s = true → s.takes = true → i ≤ q.length → r ∈ caps q s i → i < r.1
  | .nil _, _, _, _, h, _, _ => by simp [Sq.takes] at h
  | .cons (.group capture as) k s, i, r, hsh, h, hi, hr => by
    have hsh' := shallow_group hsh
    simp only [Sq.takes, Bool.or_eq_true, Bool.and_eq_true, bne_iff_ne] at h
    simp only [caps, List.mem_flatMap, List.mem_map] at hr
    obtain ⟨p, hp, r', hr', rfl⟩ := hr
    have h1 := spans_inside (fun i e hi he => alts_le hi he) hi hp
    have h2 := caps_spans q s hsh'.2.1 p.2 r' h1.2 hr'
    rcases h with h | h
    · rw [List.all_eq_true] at h
      obtain ⟨h3, h4, h5⟩ := spans_last (len := q.length) h.1 ⟨fun i e he => alts_eats q as h.2 i e he, fun _ _ hi he => (alts_le hi he).2⟩ hi hp
      obtain ⟨b, hb, he⟩ := alts_mem q as _ _ h3
      have := eats_lt q b _ _ (h.2 b hb) h5 he
      simp only; omega
    · have := takes_lt q s p.2 r' hsh'.2.1 h h1.2 hr'
      simp only; omega
  | .cons (.chr x) k s, i, r, hsh, h, hi, hr | .cons (.esc x) k s, i, r, hsh, h, hi, hr | .cons .dot k s, i, r, hsh, h, hi, hr
  | .cons (.hex x y) k s, i, r, hsh, h, hi, hr | .cons (.oct x y z) k s, i, r, hsh, h, hi, hr | .cons (.cls x y z) k s, i, r, hsh, h, hi, hr => by
    simp only [shallow, Bool.and_eq_true] at hsh
    simp only [caps, List.mem_flatMap] at hr
    obtain ⟨n, hn, hr⟩ := hr
    obtain ⟨h1, h2⟩ := counts_sub k _ n hn
    have hle : i + n ≤ q.length := Nat.le_trans (Nat.add_le_add_left h2 i) (runLen_le q _ i hi)
    have h3 := caps_spans q s hsh.2 _ r hle hr
    simp only [Sq.takes, Bool.or_eq_true, bne_iff_ne] at h
    rcases h with h | h
    · have := h1.1; omega
    · have := takes_lt q s (i + n) r hsh.2 h hle hr
      omega

/-- Must take a character. -/
def Alts.takes : Alts → Bool
  | .last _ s => s.takes
  | .more _ s as => s.takes && Alts.takes as

theorem takes_each : ∀ (as : Alts), Alts.takes as = true → ∀ s ∈ as.list, s.takes = true
  | .last _ s, h, s', hs => by simp only [Alts.list, List.mem_singleton] at hs; subst hs; exact h
  | .more _ s as, h, s', hs => by
    simp only [Alts.takes, Bool.and_eq_true] at h
    simp only [Alts.list, List.mem_cons] at hs
    rcases hs with rfl | hs
    · exact h.1
    · exact takes_each as h.2 s' hs

theorem way_bound {as : Alts} (hr : as.capRegular = true) (ht : Alts.takes as = true) {q : List Int} {i : Nat} {w : Way} (hi : i ≤ q.length)
    (hw : w ∈ as.ways q 0 i noCaps) : i < w.1 ∧ w.1 ≤ q.length := by
  have key : ∀ (as : Alts), (∀ s ∈ as.list, s.capOk = true ∧ s.takes = true) → ∀ (n : Nat), w ∈ as.ways q n i noCaps → i < w.1 ∧ w.1 ≤ q.length := by
    intro as
    have one : ∀ (hat : Bool) (s : Sq), s.capOk = true ∧ s.takes = true → ∀ n, w ∈ (if hat && i != 0 then [] else s.ways q n i noCaps) →
        i < w.1 ∧ w.1 ≤ q.length := by
      intro hat s h n hw
      obtain ⟨r, hr', rfl⟩ := alt_way h.1 hw
      exact ⟨takes_lt q s i r (capOk_shallow s h.1) h.2 hi hr', (caps_spans q s (capOk_shallow s h.1) i r hi hr').2.1⟩
    induction as using Alts.rec (motive_1 := fun _ => True) (motive_2 := fun _ => True) with
    | last hat s _ => intro h n hw; exact one hat s (h s (by simp [Alts.list])) n hw
    | more hat s as _ ih =>
      intro h n hw
      simp only [Alts.ways, List.mem_append] at hw
      rcases hw with hw | hw
      · exact one hat s (h s (by simp [Alts.list])) n hw
      · exact ih (fun s hs => h s (by simp [Alts.list, hs])) _ hw
    | _ => trivial
  exact key as (fun s hs => ⟨sane_alts as (regular_sane hr) s hs, takes_each as ht s hs⟩) 0 hw

theorem way_len {as : Alts} (hr : as.capRegular = true) (ht : Alts.takes as = true) {q : List Int} {i : Nat} {w : Way} (hi : i ≤ q.length)
    (hw : w ∈ as.ways q 0 i noCaps) : i < q.length := by
  have := way_bound hr ht hi hw; omega

/-- The preferred way to match at an offset. -/
def bestWay (as : Alts) (q : List Int) (x : Nat) : Option Way := (as.ways q 0 x noCaps).head?

theorem bestWay_none {as : Alts} {q : List Int} {x : Nat} (h : as.ways q 0 x noCaps = []) : bestWay as q x = none := by simp [bestWay, h]

theorem shows_view {n : Nat} {cx : Ctx} {t : Node} {fuel : Nat} {st : St} {sts : List St} (hres : Results cx t fuel st sts) :
    ∀ {l : List (Nat × Nat × Caps)}, Listed n sts l → Texts cx t fuel st (l.map (fun x => span (x.1, x.2.1))) := by
  induction hres with
  | stop h => intro l hl; cases hl; exact .stop h
  | step h1 h2 h3 ih =>
    intro l hl
    cases hl with
    | cons g1 _ g2 =>
      have hv := g1
      simp only [getGroup, if_true, Option.some.injEq] at hv
      have := Texts.step h1 h2 (ih g2)
      simpa [hv, span] using this

theorem sane_inside {as : Alts} (hr : as.capSane = true) (hc : ∀ c ∈ as.spell, c ∈ allChars) {t : Node} (ht : compile as.spell = some t) {cx : Ctx}
    (hq : ∀ c ∈ cx.query, c ∈ allChars) (hlen : cx.query.length < 4294967295) (hd : as.dollar = true → cx.post.head? = some 0) {st : St} (h : Reach cx t st) {s : Nat} {w : Way} (hrep : Reports as st s w) :
    st.accepted = true ∧ s ≤ cx.query.length := by
  have hi : Inv cx (groupsOf t) st := ?inv
  case inv =>
    cases as with
    | more hat b as =>
      obtain ⟨ts, ht', hrow⟩ := compile_row hr hc
      rw [ht] at ht'; cases ht'
      exact reach_inv (row_search hrow hr hlen hq hd).good h
    | last hat b =>
      obtain ⟨h1, h2, h3, _⟩ := sane_facts hr
      obtain ⟨t', ht', hroot⟩ := compile_root hat b h1 h2 h3 hc
      rw [ht] at ht'; cases ht'
      exact reach_inv (sane_safe hroot (Or.inl rfl) hd) h
  · have hv : toView st = some ((s : Int), (w.1 : Int)) := by
      have := hrep.1
      simpa [getGroup] using this
    have ha := view_eq hv
    have h5 := hi.acc ha
    have h6 := hi.start
    simp only [toView, ha, if_true, Option.some.injEq, Prod.mk.injEq] at hv
    unfold Ctx.qend at h5
    exact ⟨ha, by omega⟩

/-- From matching and `next()` to all the occurrences. -/
theorem finds_groups {as : Alts} {d : Bool} {t : Node} (ht : compile as.spell = some t)
    (hcon : ∀ (cx : Ctx), (∀ c ∈ cx.query, c ∈ allChars) → cx.query.length < 4294967295 → (d = true → cx.post.head? = some 0) →
      ∀ (fuel : Nat), cx.query.length ≤ fuel → ∃ st, construct cx t fuel = .ok st ∧
        (st.accepted = true → ∃ s w, Reports as st s w ∧ PreferredWay cx.query as 0 s w) ∧
        (st.accepted = false → ∀ x, (x = 0 ∨ x < cx.query.length) → as.ways cx.query 0 x noCaps = []))
    (hnext : ∀ (cx : Ctx), (∀ c ∈ cx.query, c ∈ allChars) → cx.query.length < 4294967295 → (d = true → cx.post.head? = some 0) →
      ∀ (fuel : Nat), cx.query.length ≤ fuel → ∀ (st : St), Reach cx t st → ∀ f i : Nat, toView st = some ((f : Int), (i : Int)) →
        ∃ st', next cx t fuel st = .ok st' ∧
          (st'.accepted = true → ∃ s w, Reports as st' s w ∧ PreferredWay cx.query as i s w) ∧
          (st'.accepted = false → ∀ x, i ≤ x → x < cx.query.length → as.ways cx.query 0 x noCaps = []))
    (hin : ∀ (cx : Ctx), (∀ c ∈ cx.query, c ∈ allChars) → cx.query.length < 4294967295 → (d = true → cx.post.head? = some 0) →
      ∀ st, Reach cx t st → ∀ (s : Nat) (w : Way), Reports as st s w → s ≤ cx.query.length)
    (hbound : ∀ (q : List Int) (i : Nat) (w : Way), i ≤ q.length → w ∈ as.ways q 0 i noCaps → i < w.1 ∧ w.1 ≤ q.length) :
    FindsGroups as.spell as.count d (bestWay as) := by
  refine ⟨t, ht, fun cx hq hlen hd fuel hfuel => ?_⟩
  obtain ⟨st, e1, e2, e3⟩ := hcon cx hq hlen hd fuel hfuel
  have key : ∀ (n : Nat) (it : St) (s : Nat) (w : Way), Reach cx t it → Reports as it s w → it.accepted = true → w.1 ≤ cx.query.length →
      cx.query.length - w.1 < n → ∃ l sts, ScanWith (bestWay as cx.query) cx.query.length w.1 l ∧ Results cx t fuel it (it :: sts) ∧ Listed as.count sts l ∧ l.length < n := by
    intro n
    induction n with
    | zero => intro it s e _ _ _ _ h; omega
    | succ n ih =>
      intro it s w hreach hrep hacc hle hn
      have hv : toView it = some ((s : Int), (w.1 : Int)) := by
        have := hrep.1
        simpa [getGroup] using this
      obtain ⟨st', f1, f2, f3⟩ := hnext cx hq hlen hd fuel hfuel it hreach s w.1 hv
      cases ha : st'.accepted with
      | true =>
        obtain ⟨s', w', g1, g2, g3, g4⟩ := f2 ha
        have hmem := List.mem_of_mem_head? g3
        have hs' := hin cx hq hlen hd _ (.next hreach f1) s' w' g1
        have hb := hbound cx.query _ _ hs' hmem
        obtain ⟨l, sts, i1, i2, i3, i4⟩ := ih st' s' w' (.next hreach f1) g1 ha hb.2 (by omega)
        exact ⟨(s', w'.1, w'.2) :: l, st' :: sts, .hit g2 g3 (fun x h1 h2 => bestWay_none (g4 x h1 h2)) i1, .step hacc f1 i2, .cons g1.1 g1.2 i3, by simp; omega⟩
      | false =>
        exact ⟨[], [], .stop (fun x h1 h2 => bestWay_none (f3 ha x h1 h2)), .step hacc f1 (.stop ha), .nil, by simp⟩
  have done : ∃ l, ScanWith (bestWay as cx.query) cx.query.length 0 l ∧ l.length ≤ cx.query.length ∧ ∃ sts, Results cx t fuel st sts ∧ Listed as.count sts l := by
    cases ha : st.accepted with
    | true =>
      obtain ⟨s, w, g1, g2, g3, g4⟩ := e2 ha
      have hs := hin cx hq hlen hd _ (.make e1) s w g1
      have hb := hbound cx.query _ _ hs (List.mem_of_mem_head? g3)
      obtain ⟨l, sts, i1, i2, i3, i4⟩ := key cx.query.length st s w (.make e1) g1 ha hb.2 (by omega)
      exact ⟨(s, w.1, w.2) :: l, .hit g2 g3 (fun x h1 h2 => bestWay_none (g4 x h1 h2)) i1, i4, st :: sts, i2, .cons g1.1 g1.2 i3⟩
    | false => exact ⟨[], .stop (fun x _ h2 => bestWay_none (e3 ha x (Or.inr h2))), by simp, [], .stop ha, .nil⟩
  obtain ⟨l, h1, h2, sts, h3, h4⟩ := done
  refine ⟨l, h1, ⟨st, sts, e1, h3, h4⟩, fun r => ?_⟩
  exact (C34_range_for cx t fuel cx.query.length r _).2 ⟨st, e1, shows_view h3 h4, by simpa using h2⟩

/-- **C50 (partial).** For every pattern that meets the condition of C49 and must take a character: matching, `next()` and a range-for report
the matches that a backtracking matcher prefers, from left to right, without overlap, none left out, and every group of every one of them is
what the group captured in that match.  Missing: patterns that match the empty text (the range-for does not end, C33), nested groups, and
the patterns for which it is false (C49). -/
theorem C50_groups_partial (as : Alts) (hr : as.capRegular = true) (hc : ∀ c ∈ as.spell, c ∈ allChars) (he : Alts.takes as = true) :
    FindsGroups as.spell as.count as.dollar (bestWay as) := by
  have hsane : as.capSane = true := regular_sane hr
  obtain ⟨t, ht, hcon⟩ := C49_captures_partial as hr hc
  obtain ⟨t', ht', hnext⟩ := C49_next_partial as hr hc
  rw [ht] at ht'; cases ht'
  exact finds_groups ht hcon hnext (fun cx hq hlen hd st h s w g => (sane_inside hsane hc ht hq hlen hd h g).2) (fun q i w hi hw => way_bound hr he hi hw)

/-- The same occurrences, described otherwise. -/
theorem FindsGroups.congr {p : List Int} {n : Nat} {d : Bool} {f g : List Int → Nat → Option (Nat × Caps)} (h : FindsGroups p n d f)
    (hfg : ∀ q x, f q x = g q x) : FindsGroups p n d g := by
  have : f = g := funext (fun q => funext (hfg q))
  rwa [← this]

theorem flat_last {α : Type} {lo r : Nat} {f : Nat → List α} (h : ∀ n, n < r → f n = []) :
    (List.range' lo (r + 1 - lo)).reverse.flatMap f = if lo ≤ r then f r else [] := by
  split
  · rename_i hle
    have : r + 1 - lo = (r - lo) + 1 := by omega
    rw [this, List.range'_1_concat, List.reverse_append]
    simp only [List.reverse_cons, List.reverse_nil, List.nil_append, List.flatMap_append, List.flatMap_cons, List.flatMap_nil, List.append_nil]
    rw [show lo + (r - lo) = r by omega, flatMap_nil (l := (List.range' lo _).reverse) (fun n hn => h n (by
      simp only [List.mem_reverse, List.mem_range'_1] at hn; omega)), List.append_nil]
  · rename_i hle
    rw [show r + 1 - lo = 0 by omega]; rfl

theorem loop_picks (q : List Int) (a : Atom) (k : Quant) (i : Nat) :
    (Alts.last false (.cons a k (.nil false))).picks q i = (k.counts (runLen a.set (q.drop i))).map (i + ·) := by
  simp only [Alts.picks, hatPicks, Bool.false_and, Bool.false_eq_true, if_false, Sq.picks, List.map_eq_flatMap]

/-- `(a+)` and `(a*)` in front of something that does not begin with a character of `a`: as many as there are. -/
theorem caps_loop {q : List Int} {a : Atom} {k : Quant} (hk : k = .plus .greedy ∨ k = .star .greedy) {s : Sq} {i : Nat}
    (h : ∀ n, n < runLen a.set (q.drop i) → caps q s (i + n) = []) :
    caps q (.cons (.group true (.last false (.cons a k (.nil false)))) .once s) i =
      if k.lo ≤ runLen a.set (q.drop i) then (caps q s (i + runLen a.set (q.drop i))).map (fun r => (r.1, (i, i + runLen a.set (q.drop i)) :: r.2)) else [] := by
  rw [caps_once, loop_picks, List.flatMap_map]
  have hcounts : k.counts (runLen a.set (q.drop i)) = (List.range' k.lo (runLen a.set (q.drop i) + 1 - k.lo)).reverse := by
    rcases hk with rfl | rfl <;> simp [Quant.counts, Quant.mode, Quant.lo, Quant.top, Quant.hi]
  rw [hcounts]
  simp only [if_true]
  rw [flat_last (f := fun n => (caps q s (i + n)).map (fun r => (r.1, (i, i + n) :: r.2))) (fun n hn => by rw [h n hn]; rfl)]

/-- The last group, `(b+)`: as many as there are, first. -/
theorem caps_end {q : List Int} {b : Atom} {i : Nat} :
    (caps q (.cons (.group true (.last false (.cons b (.plus .greedy) (.nil false)))) .once (.nil false)) i).head? =
      if 0 < runLen b.set (q.drop i) then some (i + runLen b.set (q.drop i), [(i, i + runLen b.set (q.drop i))]) else none := by
  rw [caps_once, loop_picks, List.flatMap_map]
  have hcounts : (Quant.plus .greedy).counts (runLen b.set (q.drop i)) = (List.range' 1 (runLen b.set (q.drop i))).reverse := by
    simp [Quant.counts, Quant.mode, Quant.lo, Quant.top, Quant.hi]
  rw [hcounts]
  generalize runLen b.set (q.drop i) = r
  cases r with
  | zero => simp
  | succ r =>
    rw [List.range'_1_concat, List.reverse_append]
    simp [caps, Sq.picks, Nat.add_comm 1 r]

theorem caps_char {q : List Int} {c : Int} {s : Sq} {i : Nat} : caps q (.cons (.chr c) .once s) i = if q[i]? = some c then caps q s (i + 1) else [] := by
  simp only [caps, counts_once, run_one]
  split <;> simp

/-- `(a+)sep(b+)` -/
def pairPattern (a : Atom) (sep : Int) (b : Atom) : Alts :=
  .last false (.cons (.group true (.last false (.cons a (.plus .greedy) (.nil false)))) .once (.cons (.chr sep) .once
    (.cons (.group true (.last false (.cons b (.plus .greedy) (.nil false)))) .once (.nil false))))

theorem pair_regular {a b : Atom} {sep : Int} (ha : a.ok = true) (hb : b.ok = true) (hsa : a.steady = true) (hsb : b.steady = true) (hsep : plainB sep = true)
    (hno : a.set sep = false) : (pairPattern a sep b).capRegular = true := by
  have hm : meets a.set (fun x => (Sq.cons (.chr sep) .once (.cons (.group true (.last false (.cons b (.plus .greedy) (.nil false)))) .once (.nil false))).begins x) = false := by
    refine not_meets (fun x h1 h2 => ?_)
    simp only [Sq.begins, Quant.lo, Atom.set, Bool.or_eq_true] at h2
    have : x = sep := by simpa using h2
    rw [this, hno] at h1; cases h1
  have h1 : loopOk a (.plus .greedy) (.cons (.chr sep) .once (.cons (.group true (.last false (.cons b (.plus .greedy) (.nil false)))) .once (.nil false))) = true := by
    simp only [loopOk, ha, hsa, Quant.mode]
    split
    · simp [Quant.sane, Quant.ok, Quant.lo, Quant.hi]
    · simp [Quant.sane, Quant.ok, Quant.lo, Quant.hi, hm]
  have h2 : loopOk b (.plus .greedy) (.nil false) = true := by
    simp only [loopOk, hb, hsb, Quant.mode]
    split
    · simp [Quant.sane, Quant.ok, Quant.lo, Quant.hi]
    · simp [Quant.sane, Quant.ok, Quant.lo, Quant.hi, Sq.voids]
  have h3 : (Atom.chr sep).steady = true := rfl
  simp [pairPattern, Alts.capRegular, Alts.capSane, Sq.capOk, groupOk, Quant.fixed, Quant.lo, Quant.hi, h1, h2, Sq.tidy, Sq.empty, Sq.startsLoop, hsa, Sq.solid, h3,
    Atom.ok, hsep, atomOk, Quant.mode, Quant.sane, Quant.ok]

theorem pair_best {a b : Atom} {sep : Int} (ha : a.ok = true) (hb : b.ok = true) (hsa : a.steady = true) (hsb : b.steady = true) (hsep : plainB sep = true)
    (hno : a.set sep = false) (q : List Int) (x : Nat) : bestWay (pairPattern a sep b) q x = pairWith a.set sep b.set q x := by
  have hr := pair_regular ha hb hsa hsb hsep hno
  have hcap := (sane_facts (by simp only [pairPattern, Alts.capRegular, Bool.and_eq_true] at hr; exact hr.1)).1
  rw [bestWay, pairPattern, ways_at hcap]
  simp only [capsAt, Bool.false_and, Bool.false_eq_true, if_false]
  rw [caps_loop (Or.inl rfl)]
  · simp only [Quant.lo, caps_char, pairWith]
    split
    · rename_i h
      split
      · rename_i hs
        rw [List.map_map, List.head?_map, caps_end]
        split
        · rename_i hm
          rw [if_pos ⟨h, hs, hm⟩]
          simp only [Option.map_some, Function.comp_def, fill]
          refine congrArg some (Prod.ext rfl (funext fun k => ?_))
          simp only [Caps.with, noCaps]
          by_cases h0 : k = 0
          · subst h0; simp
          · by_cases h1 : k = 1
            · subst h1; simp
            · simp [h0, h1]
        · rename_i hm
          rw [if_neg (fun h => hm h.2.2)]; rfl
      · rename_i hs
        rw [if_neg (fun h => hs h.2.1)]; rfl
    · rename_i h
      rw [if_neg (fun h' => h h'.1)]; rfl
  · intro n hn
    rw [caps_char, if_neg]
    intro h
    have := run_all (S := a.set) (q := q) (s := x) (Nat.le_refl _) (Nat.le_add_right x n) (by omega) h
    rw [hno] at this; cases this

/-- **C62.** Keys and values: for all characters, escapes (but `\s`) or classes that are not negated (and without `\s`) `a` and `b`, and every plain
character `sep` that does not belong to `a`: matching, `next()` and a range-for with `(a+)sep(b+)` report, from left to right and without
overlap, all the places where characters of `a`, `sep` and characters of `b` follow each other; the first group is the key (all characters of
`a` in front of `sep`, from where the match begins), the second the value, as long as it is. -/
theorem C62_pairs (a b : Atom) (sep : Int) (ha : a.ok = true) (hb : b.ok = true) (hsa : a.steady = true) (hsb : b.steady = true) (hsep : plainB sep = true)
    (hno : a.set sep = false) (hc : ∀ c ∈ a.spell ++ [sep] ++ b.spell, c ∈ allChars) :
    FindsGroups ([40] ++ a.spell ++ [43, 41, sep, 40] ++ b.spell ++ [43, 41]) 2 false (pairWith a.set sep b.set) := by
  have hspell : (pairPattern a sep b).spell = [40] ++ a.spell ++ [43, 41, sep, 40] ++ b.spell ++ [43, 41] := by
    simp [pairPattern, Alts.spell, Sq.spell, Atom.spell, Quant.spell, QMode.spell]
  have := C50_groups_partial (pairPattern a sep b) (pair_regular ha hb hsa hsb hsep hno) ?_ ?_
  · rw [hspell] at this
    have hcount : (pairPattern a sep b).count = 2 := by
      cases a <;> cases b <;> first | rfl | simp [Atom.steady] at hsa hsb
    have hd : (pairPattern a sep b).dollar = false := rfl
    rw [hcount, hd] at this
    exact this.congr (pair_best ha hb hsa hsb hsep hno)
  · rw [hspell]
    intro d hd
    simp only [List.mem_append, List.mem_cons, List.not_mem_nil, or_false] at hd hc
    have h40 : (40 : Int) ∈ allChars := by decide +kernel
    have h41 : (41 : Int) ∈ allChars := by decide +kernel
    have h43 : (43 : Int) ∈ allChars := by decide +kernel
    rcases hd with (((h | h) | h | h | h | h) | h) | h | h
    · rw [h]; exact h40
    · exact hc d (Or.inl (Or.inl h))
    · rw [h]; exact h43
    · rw [h]; exact h41
    · exact hc d (Or.inl (Or.inr h))
    · rw [h]; exact h40
    · exact hc d (Or.inr h)
    · rw [h]; exact h43
    · rw [h]; exact h41
  · simp [pairPattern, Alts.takes, Sq.takes, Quant.lo]

/-- `o([^c]*)c` -/
def untilPattern (o c : Int) : Alts :=
  .last false (.cons (.chr o) .once (.cons (.group true (.last false (.cons (.cls true [.chr c] false) (.star .greedy) (.nil false)))) .once
    (.cons (.chr c) .once (.nil false))))

theorem until_set (c : Int) : (Atom.cls true [.chr c] false).set = fun y => y != c := by
  funext y
  simp only [Atom.set, listed, Item.test, List.any_cons, List.any_nil, Bool.or_false, Bool.false_and]
  cases h : (y == c) <;> simp_all

theorem until_regular {o c : Int} (ho : plainB o = true) (h1 : plainB c = true) (h2 : classB c = true) (h3 : ascii c = true) : (untilPattern o c).capRegular = true := by
  have hm : meets (Atom.cls true [.chr c] false).set (Sq.cons (.chr c) .once (.nil false)).begins = false := by
    refine not_meets (fun x h1 h2 => ?_)
    simp only [Sq.begins, Quant.lo, Atom.set, Bool.or_eq_true] at h2
    have : x = c := by simpa using h2
    subst this
    simp [Atom.set, listed, Item.test] at h1
  have hk : meets (Atom.cls true [.chr c] false).shown (Sq.cons (.chr c) .once (.nil false)).looks = false := by
    refine not_meets (fun x h1 h2 => ?_)
    simp only [Sq.looks, Atom.shown, Atom.set, Quant.lo, Bool.or_eq_true, beq_iff_eq] at h2
    have : x = c := by simpa [ascii] using h2
    subst this
    simp [Atom.shown, Item.test, h3] at h1
  have hl : loopOk (.cls true [.chr c] false) (.star .greedy) (.cons (.chr c) .once (.nil false)) = true := by
    simp [loopOk, Quant.mode, hk, hm, Quant.sane, Quant.ok, Quant.lo, Quant.hi, Atom.ok, Item.ok, Atom.skips, Item.steady, h2]
  simp [untilPattern, Alts.capRegular, Alts.capSane, Sq.capOk, groupOk, Quant.fixed, Quant.lo, Quant.hi, hl, Sq.tidy, Sq.empty, Sq.solid, Atom.steady,
    Atom.ok, h1, ho, atomOk, Quant.mode, Quant.sane, Quant.ok]

theorem until_best {o c : Int} (ho : plainB o = true) (h1 : plainB c = true) (h2 : classB c = true) (h3 : ascii c = true) (q : List Int) (x : Nat) :
    bestWay (untilPattern o c) q x = untilWith o c q x := by
  have hr := until_regular ho h1 h2 h3
  have hcap := (sane_facts (by simp only [untilPattern, Alts.capRegular, Bool.and_eq_true] at hr; exact hr.1)).1
  rw [bestWay, untilPattern, ways_at hcap]
  simp only [capsAt, Bool.false_and, Bool.false_eq_true, if_false, caps_char, untilWith]
  split
  · rw [caps_loop (Or.inr rfl)]
    · rw [until_set]
      generalize hr : runLen (fun y => y != c) (q.drop (x + 1)) = r
      simp only [Quant.lo, Nat.zero_le, if_true, caps_char]
      by_cases hlt : x + 1 + r < q.length
      · have hc := run_end (S := fun y => y != c) (s := x + 1) (c := q[x + 1 + r]) (by rw [hr]; exact List.getElem?_eq_getElem hlt)
        simp only [bne_eq_false_iff_eq] at hc
        rw [if_pos (by rw [List.getElem?_eq_getElem hlt, hc]), if_pos hlt]
        simp only [caps, Sq.picks, List.map_cons, List.map_nil, List.head?_cons, fill]
        refine congrArg some (Prod.ext (by simp) (funext fun k => ?_))
        simp [Caps.with, noCaps]
      · rw [if_neg (by rw [List.getElem?_eq_none (by omega)]; simp), if_neg hlt]; rfl
    · intro n hn
      rw [caps_char, if_neg]
      intro h
      rw [until_set] at hn
      have := run_all (S := fun y => y != c) (q := q) (s := x + 1) (Nat.le_refl _) (Nat.le_add_right (x + 1) n) (by omega) h
      simp at this
  · rfl

/-- **C54.** The same with a group: `o([^c]*)c` finds the same occurrences, and the text between the two characters is the group. -/
theorem C54_delimited_group (o c : Int) (ho : plainB o = true ∧ o ∈ allChars) (h1 : plainB c = true) (h2 : classB c = true) (h3 : ascii c = true) :
    FindsGroups ([o] ++ [40, 91, 94, c, 93, 42, 41, c]) 1 false (untilWith o c) := by
  have hcc : c ∈ allChars := by
    simp only [ascii, Bool.and_eq_true, decide_eq_true_eq] at h3
    simp only [allChars, List.mem_map, List.mem_range]
    exact ⟨(c + 128).toNat, by omega, by omega⟩
  have hspell : (untilPattern o c).spell = [o] ++ [40, 91, 94, c, 93, 42, 41, c] := by
    simp [untilPattern, Alts.spell, Sq.spell, Atom.spell, Quant.spell, Item.spell, QMode.spell]
  have := C50_groups_partial (untilPattern o c) (until_regular ho.1 h1 h2 h3) ?_ ?_
  · rw [hspell] at this
    exact this.congr (until_best ho.1 h1 h2 h3)
  · rw [hspell]
    intro d hd
    simp only [List.mem_append, List.mem_cons, List.not_mem_nil, or_false] at hd
    rcases hd with rfl | rfl | rfl | rfl | rfl | rfl | rfl | rfl | rfl
    · exact ho.2
    · decide +kernel
    · decide +kernel
    · decide +kernel
    · exact hcc
    · decide +kernel
    · decide +kernel
    · decide +kernel
    · exact hcc
  · simp [untilPattern, Alts.takes, Sq.takes, Quant.lo]

/-! ## C37 : words in a group -/

/-- `o(w|w1|w2|…)` -/
def afterPattern (o : Int) (w w' : List Int) (ws : List (List Int)) : Alts :=
  .last false (.cons (.chr o) .once (.cons (.group true (choice w (w' :: ws))) .once (.nil false)))

theorem choice_bare : ∀ (w : List Int) (ws : List (List Int)), (∀ v ∈ w :: ws, (plain v).dollar = false) → (choice w ws).bare = true
  | w, [], h => by simp [choice, Alts.bare, h w]
  | w, w' :: ws, h => by
    have ih := choice_bare w' ws (fun v hv => h v (by simp at hv ⊢; grind))
    simp [choice, Alts.bare, h w, ih]

theorem plain_least : ∀ w : List Int, (plain w).least = w.length
  | [] => rfl
  | c :: w => by
    have := plain_least w
    simp only [plain, List.foldr_cons, Sq.least, Quant.lo] at this ⊢
    simp [this]; omega

theorem after_regular {o : Int} {w w' : List Int} {ws : List (List Int)} (ho : plainB o = true) (hne : ∀ v ∈ w :: w' :: ws, v ≠ [])
    (hp : ∀ v ∈ w :: w' :: ws, ∀ c ∈ v, plainB c = true) (hl : ∀ v ∈ w :: w' :: ws, v.length < 4294967296) : (afterPattern o w w' ws).capRegular = true := by
  have hok := fun v hv => plain_ok (hne v hv) (hp v hv)
  have hbody : bodyOk true (choice w (w' :: ws)) (.nil false) = true := by
    have h1 := choice_bare w (w' :: ws) (fun v hv => (hok v hv).2.2)
    have h2 : (choice w (w' :: ws)).list.all (fun b => b.regular && !b.empty && decide (b.least < 4294967296)) = true := by
      rw [choice_list, List.all_map, List.all_eq_true]
      intro v hv
      have hem : (plain v).empty = false := by
        cases v with
        | nil => exact absurd rfl (hne _ hv)
        | cons => rfl
      simp [plain_regular v (hp v hv), hem, plain_least, hl v hv]
    have h3 : (choice w (w' :: ws)).list.all (fun b => b.eats && b.steadyHead) = true := by
      rw [choice_list, List.all_map, List.all_eq_true]
      intro v hv
      have : (plain v).steadyHead = true := by
        cases v with
        | nil => exact absurd rfl (hne _ hv)
        | cons => rfl
      simp [(hok v hv).2.1, this]
    unfold bodyOk
    simp only [h1, h2, Sq.voids, Bool.not_false, Bool.true_or, Bool.and_true, Bool.true_and]
    exact h3
  have hg : groupOk true (choice w (w' :: ws)) (.nil false) = true := by
    simp only [choice] at hbody ⊢
    simpa [groupOk] using hbody
  simp [afterPattern, Alts.capRegular, Alts.capSane, Sq.capOk, hg, Sq.tidy, Sq.empty, Sq.solid, Atom.steady, Atom.ok, ho, atomOk, Quant.mode, Quant.sane, Quant.ok,
    Quant.fixed, Quant.lo, Quant.hi]

theorem after_best {o : Int} {w w' : List Int} {ws : List (List Int)} (hr : (afterPattern o w w' ws).capRegular = true) (q : List Int) (x : Nat) :
    bestWay (afterPattern o w w' ws) q x = afterWith o (w :: w' :: ws) q x := by
  have hcap := (sane_facts (by simp only [afterPattern, Alts.capRegular, Bool.and_eq_true] at hr; exact hr.1)).1
  rw [bestWay, afterPattern, ways_at hcap]
  simp only [capsAt, Bool.false_and, Bool.false_eq_true, if_false, caps_char, afterWith]
  split
  · rw [← words_at, caps_once, choice_picks]
    cases h : List.flatMap (fun w => (plain w).picks q (x + 1)) (w :: w' :: ws) with
    | nil => simp
    | cons e l =>
      simp only [List.flatMap_cons, caps, Sq.picks, Bool.false_eq_true, if_false, List.map_cons, List.map_nil, if_true, List.cons_append, List.head?_cons, fill, Option.map_some]
      refine congrArg some (Prod.ext rfl (funext fun k => ?_))
      simp [Caps.with, noCaps]
  · rfl

/-- **C37.** `o(w1|w2|…)`, for a character `o` and at least two non-empty words without operators: matching, `next()` and a range-for report, from left to
right and without overlap, the places where `o` stands in front of one of the words; where several do, the one listed first, as the text of the group. -/
theorem C37_words_in_group (o : Int) (ho : plainB o = true ∧ o ∈ allChars) (ws : List (List Int)) (hws : 2 ≤ ws.length) (hne : ∀ w ∈ ws, w ≠ [])
    (hp : ∀ w ∈ ws, ∀ c ∈ w, plainB c = true ∧ c ∈ allChars) (hl : ∀ w ∈ ws, w.length < 4294967296) :
    FindsGroups ([o, 40] ++ [124].intercalate ws ++ [41]) 1 false (afterWith o ws) := by
  match ws, hws with
  | w :: w' :: ws, _ =>
    have hr := after_regular ho.1 hne (fun v hv c hc => (hp v hv c hc).1) hl
    have hspell : (afterPattern o w w' ws).spell = [o, 40] ++ [124].intercalate (w :: w' :: ws) ++ [41] := by
      rw [← choice_spell]
      simp [afterPattern, Alts.spell, Sq.spell, Atom.spell, Quant.spell]
    have hcount : ∀ (w : List Int) (ws : List (List Int)), (choice w ws).count = 0 := by
      have h0 : ∀ w : List Int, (plain w).count = 0 := by
        intro w
        induction w with
        | nil => rfl
        | cons c w ih => simpa [plain, Sq.count, Atom.count] using ih
      intro w ws
      induction ws generalizing w with
      | nil => simpa [choice, Alts.count] using h0 w
      | cons v ws ih => simp [choice, Alts.count, h0, ih]
    have hdol : (afterPattern o w w' ws).dollar = false := by simp [afterPattern, Alts.dollar, Sq.dollar]
    have := C50_groups_partial (afterPattern o w w' ws) hr ?_ ?_
    · rw [hspell, hdol] at this
      have hcnt : (afterPattern o w w' ws).count = 1 := by simp [afterPattern, Alts.count, Sq.count, Atom.count, hcount]
      rw [hcnt] at this
      exact this.congr (after_best hr)
    · rw [hspell]
      intro d hd
      simp only [List.mem_append, List.mem_cons, List.not_mem_nil, or_false] at hd
      rcases hd with ((rfl | rfl) | hd) | rfl
      · exact ho.2
      · decide +kernel
      · simp only [List.intercalate, List.mem_flatten] at hd
        obtain ⟨v, hv, hcv⟩ := hd
        rcases mem_intersperse hv with rfl | hv
        · simp only [List.mem_singleton] at hcv; subst hcv; decide +kernel
        · exact (hp v hv d hcv).2
      · decide +kernel
    · simp [afterPattern, Alts.takes, Sq.takes, Quant.lo]

/-! ## the hypotheses are met -/

/-- The groups of the results of matching and `n - 1` times `next()`. -/
private def seen (p q : String) (k : Nat) : Nat → Option St → List (List (Option View))
  | 0, _ => []
  | n + 1, st =>
    match compile (str p), st with
    | some t, some st => if st.accepted then (List.range k).map (getGroup st) :: seen p q k n (match next (lit q) t q.length st with | .ok st' => some st' | _ => none) else []
    | _, _ => []
private def first (p q : String) : Option St := (compile (str p)).bind (fun t => match construct (lit q) t q.length with | .ok st => some st | _ => none)
private def v (a b : Int) : Option View := some (some (a, b))

example : let a := Atom.esc 119; let b := Atom.cls false [.rng 48 57] false
    a.ok = true ∧ b.ok = true ∧ a.steady = true ∧ b.steady = true ∧ plainB 61 = true ∧ a.set 61 = false ∧
      (∀ c ∈ a.spell ++ [61] ++ b.spell, c ∈ allChars) ∧ [40] ++ a.spell ++ [43, 41, 61, 40] ++ b.spell ++ [43, 41] = str "(\\w+)=([0-9]+)" ∧
      seen "(\\w+)=([0-9]+)" "ab=12, x= c=3d=4" 3 9 (first "(\\w+)=([0-9]+)" "ab=12, x= c=3d=4") =
        [[v 0 5, v 0 2, v 3 5], [v 10 13, v 10 11, v 12 13], [v 13 16, v 13 14, v 15 16]] := by decide +kernel

example : plainB 40 = false ∧ plainB 60 = true ∧ (60 : Int) ∈ allChars ∧ plainB 62 = true ∧ classB 62 = true ∧ ascii 62 = true ∧
    [60] ++ [40, 91, 94, 62, 93, 42, 41, 62] = str "<([^>]*)>" ∧
    seen "<([^>]*)>" "<a><<b> > <>" 2 9 (first "<([^>]*)>" "<a><<b> > <>") = [[v 0 3, v 1 2], [v 3 7, v 4 6], [v 10 12, v 11 11]] := by decide +kernel

/-- `x(\d\d?)-(a|b)+` -/
example : let as : Alts := .last false (.cons (.chr 120) .once (.cons (.group true (.last false (.cons (.esc 100) .once (.cons (.esc 100) (.opt .greedy) (.nil false)))))
      .once (.cons (.chr 45) .once (.cons (.group true (.more false (.cons (.chr 97) .once (.nil false)) (.last false (.cons (.chr 98) .once (.nil false)))))
        (.plus .greedy) (.nil false)))))
    as.spell = str "x(\\d\\d?)-(a|b)+" ∧ as.capRegular = true ∧ Alts.takes as = true ∧ as.dollar = false ∧ as.count = 2 ∧
    seen "x(\\d\\d?)-(a|b)+" "xx1-ab x22-c x22-b" 3 9 (first "x(\\d\\d?)-(a|b)+" "xx1-ab x22-c x22-b") =
      [[v 1 6, v 2 3, v 5 6], [v 13 18, v 14 16, v 17 18]] := by decide +kernel

example : let ws := [str "in", str "int", str "if"]
    plainB 64 = true ∧ (64 : Int) ∈ allChars ∧ 2 ≤ ws.length ∧ (∀ w ∈ ws, w ≠ [] ∧ w.length < 4294967296 ∧ ∀ c ∈ w, plainB c = true ∧ c ∈ allChars) ∧
      [64, 40] ++ [124].intercalate ws ++ [41] = str "@(in|int|if)" ∧
      seen "@(in|int|if)" "@if in @int @" 2 9 (first "@(in|int|if)" "@if in @int @") = [[v 0 3, v 1 3], [v 7 10, v 8 10]] := by decide +kernel

end ERegex.Props

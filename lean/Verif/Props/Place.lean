import Verif.Proofs.Unbound
import Verif.Props.Written
import Verif.Props.Capture
import Verif.Props.Surroundings
/-!
# C67 : matching goes on as on a query that begins where the last match ended
-/
set_option autoImplicit false
namespace ERegex.Props
open ERegex ERegex.Spec
open ERegex.Conformance (lit m)

theorem compile_unbound {as : Alts} (h : as.ok = true) (hh : as.hatless = true) {t : Node} (hc : compile as.spell = some t) : t.unbound = true := by
  have hb := build_tree as h
  obtain ⟨b, h1, h2⟩ := compile_split hc
  rw [hb] at h1; cases h1
  obtain ⟨k, rfl⟩ := optimize_rounds h2
  exact unbound_rounds k _ (tree_unbound h hh)

/-- Advancing a result that ends at `e` is searching the rest. -/
theorem next_rest {cx : Ctx} {t : Node} (hu : t.unbound = true) {e : Nat} (he : e ≤ cx.query.length) {st : St} (hp : st.pos = e) (ha : st.accepted = true)
    (fuel : Nat) : next cx t fuel st = (next (cx.sub e) t fuel (initSt t)).shift e := by
  rw [← next_sh (sub_moved cx he) hu fuel]
  exact next_congr (by simp [St.shift, initSt, hp]) (by simp [St.shift, initSt, ha])

theorem sub_append (pre u r post : List Int) : (Ctx.mk pre (u ++ r) post).sub u.length = ⟨pre ++ u, r, post⟩ := by
  simp [Ctx.sub]

theorem shift_shift (a b : Int) (o : Outcome) : (o.shift a).shift b = o.shift (a + b) := by
  cases o with
  | ok st =>
    simp only [Outcome.shift, St.shift, Outcome.ok.injEq, St.mk.injEq]
    refine ⟨by omega, by omega, ?_, trivial⟩
    rw [List.map_map]
    refine List.map_congr_left fun v _ => ?_
    cases v with
    | none => rfl
    | some x => simp [shiftView, Int.add_assoc]
  | _ => rfl

theorem view_acc {st : St} {v : Int × Int} (hv : toView st = some v) : st.accepted = true := by
  simp only [toView] at hv
  split at hv
  · assumption
  · simp at hv

theorem view_end {st : St} {x y : Int} (hv : toView st = some (x, y)) : st.start = x ∧ st.pos = y := by
  simp only [toView] at hv
  split at hv
  · simpa using hv
  · simp at hv

/-- **C67 (partial).** For every well-formed pattern without `^`: if one buffer is queried from two places on (to the same end) and in both cases
some match has ended at the same address, advancing both results finds the same: the same match at the same address with the same groups, no further
match, or the same misbehaviour.  (`shift` moves all positions: they count from the start of the query.)  Missing: `^`. -/
theorem C67_same_buffer_partial (as : Alts) (hok : as.ok = true) (hh : as.hatless = true) (t : Node) (h : compile as.spell = some t)
    (pre u pre' u' r post : List Int) (hb : pre ++ u = pre' ++ u') (st st' : St) (s s' : Int)
    (hv : toView st = some (s, (u.length : Int))) (hv' : toView st' = some (s', (u'.length : Int))) (fuel : Nat) :
    next ⟨pre', u' ++ r, post⟩ t fuel st' = (next ⟨pre, u ++ r, post⟩ t fuel st).shift (u'.length - u.length) := by
  have hu := compile_unbound hok hh h
  rw [next_rest hu (e := u.length) (by simp) (view_end hv).2 (view_acc hv), next_rest hu (e := u'.length) (by simp) (view_end hv').2 (view_acc hv'),
    sub_append, sub_append, hb, shift_shift]
  congr 1; omega

/-- **C67 (partial).** For every well-formed pattern without `^` that meets the condition of C18 (or, with `$`, that of C19 if a NUL follows both
queries): what `next()` finds depends on nothing but the rest of the query behind the last match.  If two queries end in the same `r` and in both a
match has ended where `r` begins, advancing both results gives the same up to the position.  Missing: `^`, and patterns that read in front of the query
(`C67_refuted_in_front`). -/
theorem C67_only_the_rest_partial (as : Alts) (hok : as.ok = true) (hh : as.hatless = true) (nul : Bool) (ht : as.tame nul false 1 = true) (t : Node)
    (h : compile as.spell = some t) (pre u post pre' u' post' r : List Int)
    (hn : nul = true → post.head? = some 0 ∧ post'.head? = some 0) (st st' : St) (s s' : Int)
    (hv : toView st = some (s, (u.length : Int))) (hv' : toView st' = some (s', (u'.length : Int))) (fuel : Nat) :
    next ⟨pre', u' ++ r, post'⟩ t fuel st' = (next ⟨pre, u ++ r, post⟩ t fuel st).shift (u'.length - u.length) := by
  have hu := compile_unbound hok hh h
  have hsafe := tame_safe nul t (tame_of hok h ht)
  have key : ∀ cx : Ctx, (nul = true → cx.post.head? = some 0) →
      next cx t fuel (initSt t) = next (if nul then cstr cx.query else bare cx.query) t fuel (initSt t) := by
    intro cx hp
    cases nul with
    | false =>
      have hs : SafeTree (bare cx.query) t := compile_safeTree h hsafe (by simp)
      exact next_le (ctx_bare_le cx) t fuel _ (not_ub_of_good (next_good hs fuel (initSt t) (Int.le_refl _)
        (by simp only [initSt, Ctx.qend]; omega))).2
    | true =>
      have hs : SafeTree (cstr cx.query) t := compile_safeTree h hsafe (by simp [cstr])
      exact next_le (ctx_nul_le cx 0 (hp rfl)) t fuel _ (not_ub_of_good (next_good hs fuel (initSt t) (Int.le_refl _)
        (by simp only [initSt, Ctx.qend]; omega))).2
  rw [next_rest hu (e := u.length) (by simp) (view_end hv).2 (view_acc hv), next_rest hu (e := u'.length) (by simp) (view_end hv').2 (view_acc hv'),
    sub_append, sub_append, key ⟨pre ++ u, r, post⟩ (fun h => (hn h).1), key ⟨pre' ++ u', r, post'⟩ (fun h => (hn h).2), shift_shift]
  congr 1; omega

/-! ## next() and a fresh match of the rest -/

theorem loop_before {cx : Ctx} {t : Node} : ∀ (f : Nat) (st st' : St), nextLoop cx (run cx t []) f st = .ok st' → st'.accepted = true → st'.start < cx.qend
  | 0, st, st', h, ha => by
    simp only [nextLoop] at h
    split at h
    · simp at h
    · simp only [Outcome.ok.injEq] at h; subst h; simp at ha
  | f + 1, st, st', h, ha => by
    simp only [nextLoop] at h
    split at h
    · cases hr : run cx t [] st with
      | none => rw [hr] at h; simp at h
      | some st1 =>
        rw [hr] at h
        simp only at h
        split at h
        · simp only [Outcome.ok.injEq] at h; subst h
          have := run_start cx t st _ hr
          omega
        · exact loop_before f _ _ h ha
    · simp only [Outcome.ok.injEq] at h; subst h; simp at ha

theorem construct_before {cx : Ctx} {t : Node} {f : Nat} {st : St} (h : construct cx t f = .ok st) (ha : st.accepted = true) : st.start = 0 ∨ st.start < cx.qend := by
  simp only [construct] at h
  cases hr : run cx t [] (initSt t) with
  | none => rw [hr] at h; simp at h
  | some st1 =>
    rw [hr] at h
    simp only at h
    split at h
    · simp only [Outcome.ok.injEq] at h; subst h
      exact Or.inl (run_start cx t _ _ hr)
    · exact Or.inr (loop_before f _ _ h ha)

/-- What is reported, moved by `d`. -/
def Moved (d : Int) (as : Alts) (a b : St) : Prop :=
  a.accepted = b.accepted ∧ toView a = shiftView d (toView b) ∧ (b.accepted = true → ∀ n, n < as.count → getGroup a (n + 1) = (getGroup b (n + 1)).map (shiftView d))

theorem shift_view (d : Int) (st : St) : toView (st.shift d) = shiftView d (toView st) := by
  simp only [toView, ite_acc]
  split <;> rfl

theorem shift_group (d : Int) (st : St) (n : Nat) : getGroup (st.shift d) n = (getGroup st n).map (shiftView d) := by
  simp only [getGroup]
  split
  · rw [shift_view]; rfl
  · simp [St.shift]

theorem cap_ok {as : Alts} (hr : as.capRegular = true) : as.ok = true := by
  cases as with
  | last hat s =>
    simp only [Alts.capRegular, Alts.capSane, Bool.and_eq_true] at hr
    simp [Alts.ok, capOk_ok s hr.1.1.1.1, hr.1.1.2]
  | more hat s as => exact row_ok _ 0 0 hr

theorem way_unique {q : List Int} {as : Alts} {s s' : Nat} {w w' : Way} (h : PreferredWay q as 0 s w) (h' : PreferredWay q as 0 s' w') : s = s' ∧ w = w' := by
  obtain ⟨_, h1, h2⟩ := h
  obtain ⟨_, h3, h4⟩ := h'
  have : s = s' := by
    rcases Nat.lt_trichotomy s s' with hlt | heq | hlt
    · rw [h4 s (Nat.zero_le _) hlt] at h1; simp at h1
    · exact heq
    · rw [h2 s' (Nat.zero_le _) hlt] at h3; simp at h3
  subst this
  rw [h1] at h3
  exact ⟨rfl, by simpa using h3⟩

theorem reports_start {as : Alts} {st : St} {s : Nat} {w : Way} (h : Reports as st s w) : st.start = s := by
  have h1 := h.1
  simp only [getGroup, if_true, Option.some.injEq] at h1
  exact (view_end h1).1

/-- From matching and `next()` to the rest of the query. -/
theorem rest_of {as : Alts} {d : Bool} {t : Node} (ht : compile as.spell = some t) (hok : as.ok = true) (hh : as.hatless = true)
    (hall : ∀ (cx : Ctx), (∀ c ∈ cx.query, c ∈ allChars) → cx.query.length < 4294967295 → (d = true → cx.post.head? = some 0) →
        (∀ st, Reach cx t st → 0 ≤ st.pos ∧ st.pos ≤ cx.qend + 1) ∧
        ∀ (fuel : Nat), cx.query.length ≤ fuel → ∀ (st : St) (i : Nat), st.pos = i → st.pos ≤ cx.qend + 1 →
          ∃ st', next cx t fuel st = .ok st' ∧
            (st'.accepted = true → ∃ s w, Reports as st' s w ∧ PreferredWay cx.query as i s w) ∧
            (st'.accepted = false → ∀ x, i ≤ x → x < cx.query.length → as.ways cx.query 0 x noCaps = []))
    (hcon : ∀ (cx : Ctx), (∀ c ∈ cx.query, c ∈ allChars) → cx.query.length < 4294967295 → (d = true → cx.post.head? = some 0) →
      ∀ (fuel : Nat), cx.query.length ≤ fuel → ∃ st, construct cx t fuel = .ok st ∧
        (st.accepted = true → ∃ s w, Reports as st s w ∧ PreferredWay cx.query as 0 s w) ∧
        (st.accepted = false → ∀ x, (x = 0 ∨ x < cx.query.length) → as.ways cx.query 0 x noCaps = [])) :
      ∀ (cx cx' : Ctx), (∀ c ∈ cx.query, c ∈ allChars) → cx.query.length < 4294967295 →
        (d = true → cx.post.head? = some 0 ∧ cx'.post.head? = some 0) →
        ∀ (fuel : Nat), cx.query.length ≤ fuel → ∀ (st : St), Reach cx t st → ∀ f e : Nat, toView st = some ((f : Int), (e : Int)) →
          e < cx.query.length → cx'.query = cx.query.drop e →
          ∃ a b, next cx t fuel st = .ok a ∧ construct cx' t fuel = .ok b ∧ Moved e as a b := by
  intro cx cx' hq hlen hn fuel hfuel st _ f e hv he hq'
  have hu := compile_unbound hok hh ht
  have hrest := next_rest hu (Nat.le_of_lt he) (view_pos hv) (view_acc hv) fuel
  have hqs : (cx.sub e).query = cx.query.drop e := rfl
  have hqr : ∀ c ∈ cx.query.drop e, c ∈ allChars := fun c hc => hq c (List.mem_of_mem_drop hc)
  have hl : (cx.query.drop e).length = cx.query.length - e := by simp
  obtain ⟨a, e1, a1, a2⟩ := (hall (cx.sub e) (by rw [hqs]; exact hqr) (by rw [hqs]; omega) (fun h => (hn h).1)).2 fuel (by rw [hqs]; omega) (initSt t) 0 rfl
    (by simp only [initSt, Ctx.qend]; omega)
  obtain ⟨b, e2, b1, b2⟩ := hcon cx' (by rw [hq']; exact hqr) (by rw [hq']; omega) (fun h => (hn h).2) fuel (by rw [hq']; omega)
  rw [e1] at hrest
  refine ⟨_, b, hrest, e2, ?_⟩
  rw [hqs] at a1 a2
  rw [hq'] at b1 b2
  have ha : a.accepted = true → a.start < (cx.query.drop e).length := fun h => loop_before fuel _ _ e1 h
  have hb : b.accepted = true → b.start < (cx.query.drop e).length := fun h => by
    have := construct_before e2 h
    simp only [Ctx.qend, hq'] at this
    omega
  have acc_iff : a.accepted = b.accepted := by
    cases hxa : a.accepted <;> cases hxb : b.accepted
    · rfl
    · obtain ⟨s, w, h1, h2⟩ := b1 hxb
      have := reports_start h1
      have := hb hxb
      have := h2.2.1
      rw [a2 hxa s (Nat.zero_le _) (by omega)] at this
      simp at this
    · obtain ⟨s, w, h1, h2⟩ := a1 hxa
      have := reports_start h1
      have := ha hxa
      have := h2.2.1
      rw [b2 hxb s (Or.inr (by omega))] at this
      simp at this
    · rfl
  refine ⟨acc_iff, ?_, fun hxb n hn => ?_⟩
  · rw [shift_view]
    congr 1
    cases hxb : b.accepted with
    | false => simp [toView, acc_iff, hxb]
    | true =>
      obtain ⟨s, w, h1, h2⟩ := a1 (by rw [acc_iff, hxb])
      obtain ⟨s', w', h1', h2'⟩ := b1 hxb
      obtain ⟨rfl, rfl⟩ := way_unique h2 h2'
      have := h1.1.trans h1'.1.symm
      simpa [getGroup] using this
  · rw [shift_group]
    obtain ⟨s, w, h1, h2⟩ := a1 (by rw [acc_iff, hxb])
    obtain ⟨s', w', h1', h2'⟩ := b1 hxb
    obtain ⟨rfl, rfl⟩ := way_unique h2 h2'
    rw [h1.2 n hn, h1'.2 n hn]

/-- **C67 (partial).** For every pattern without `^` that meets the condition of C49, every query and every result a program can obtain that ends at
`e`, before the end of the query: `next()` finds what matching the rest of the query, copied anywhere, finds: the same text at the same place, with the
same groups.  Missing: other patterns (`C67_refuted_retry`), and a match that ends at the end of the query (`C67_refuted_at_end`). -/
theorem C67_rest_partial (as : Alts) (hr : as.capRegular = true) (hh : as.hatless = true) (hc : ∀ c ∈ as.spell, c ∈ allChars) :
    ∃ t, compile as.spell = some t ∧
      ∀ (cx cx' : Ctx), (∀ c ∈ cx.query, c ∈ allChars) → cx.query.length < 4294967295 →
        (as.dollar = true → cx.post.head? = some 0 ∧ cx'.post.head? = some 0) →
        ∀ (fuel : Nat), cx.query.length ≤ fuel → ∀ (st : St), Reach cx t st → ∀ f e : Nat, toView st = some ((f : Int), (e : Int)) →
          e < cx.query.length → cx'.query = cx.query.drop e →
          ∃ a b, next cx t fuel st = .ok a ∧ construct cx' t fuel = .ok b ∧ Moved e as a b := by
  obtain ⟨t, ht, hall⟩ := cap_from as hr hc
  obtain ⟨t', ht', hcon⟩ := C49_captures_partial as hr hc
  rw [ht] at ht'; cases ht'
  exact ⟨t, ht, rest_of ht (cap_ok hr) hh hall hcon⟩

/-! ## the hypotheses are met -/

example : tagPattern.ok = true ∧ tagPattern.hatless = true ∧ tagPattern.tame false false 1 = true ∧ tagPattern.capRegular = true ∧
    addressPattern.hatless = true ∧ addressPattern.capRegular = true ∧ tameSample.hatless = true ∧ tameSample.tame false false 1 = true := by decide +kernel
-- results that end where the rest begins
example : (compile tagPattern.spell).map (fun t => (construct (lit "<a><bb>") t 9, construct (lit "-<ccc><bb>") t 20)) =
    some (.ok ⟨0, 3, [some (1, 2)], true⟩, .ok ⟨1, 6, [some (2, 5)], true⟩) := by decide +kernel
example : m "<(.*?)>" "<a><bb>" 1 = some [some "<bb>", some "bb"] ∧ m "<(.*?)>" "-<ccc><bb>" 1 = some [some "<bb>", some "bb"] ∧
    m "<(.*?)>" "<bb>" = some [some "<bb>", some "bb"] := by decide +kernel

/-! ## where it fails -/

/-- **C67, refuted.** An optional of width 3 looks back over the end of the last match: `next()` behind "aaa" and behind "ccc" differ on the same rest. -/
theorem C67_refuted_in_front : m "aaa|ccc|x(?:aaa)?a" "aaaxb" = some [some "aaa"] ∧ m "aaa|ccc|x(?:aaa)?a" "cccxb" = some [some "ccc"] ∧
    m "aaa|ccc|x(?:aaa)?a" "aaaxb" 1 = some [some ""] ∧ m "aaa|ccc|x(?:aaa)?a" "cccxb" 1 = none := by decide +kernel

/-- **C67, refuted.** A failed first attempt of `match()` is repeated from where it left the cursor, a failed attempt of `next()` from one further on:
with `(ab)c|x`, after the `x` of "xababc" `next()` finds nothing; matching "ababc" finds "abc". -/
theorem C67_refuted_retry : m "(ab)c|x" "xababc" = some [some "x", some ""] ∧ m "(ab)c|x" "xababc" 1 = none ∧
    m "(ab)c|x" "ababc" = some [some "abc", some "ab"] := by decide +kernel

/-- **C67, refuted.** At the end of the query `next()` does not try at all, while matching the empty text does. -/
theorem C67_refuted_at_end : m "a*" "aa" = some [some "aa"] ∧ m "a*" "aa" 1 = none ∧ m "a*" "" = some [some ""] := by decide +kernel

/-- **C67, refuted for `^`**, as it should be: `^` is the start of the query. -/
theorem C67_refuted_caret : m "^a|b" "ba" = some [some "b"] ∧ m "^a|b" "ba" 1 = none ∧ m "^a|b" "a" = some [some "a"] := by decide +kernel

end ERegex.Props

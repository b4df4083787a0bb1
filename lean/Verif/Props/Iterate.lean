import Verif.Proofs.Size
import Verif.Props.Sound
/-!
# C17, C33, C34, C43, C46 : sizes, iteration over the matches, comparison of views
-/
set_option autoImplicit false
namespace ERegex.Props
open ERegex ERegex.Spec
open ERegex.Conformance (lit m)

/-! ## C17 -/

/-- **C17.** For every pattern, every query and every place: no text denoted by the pattern is shorter than the minimum match
size computed for it, by `unsigned` arithmetic that may wrap. -/
theorem C17_min_size_lower_bound (p : List Int) (b : Node) (hb : build p = some b) (q : List Int) (i j : Nat)
    (h : Den q (toRx b) i j) : i + minSize b ≤ j := min_den q b (build_negOk hb) i j h

/-- **C17.** The same for the tree that is matched, after the heuristics. -/
theorem C17_min_size_compiled (p : List Int) (t : Node) (hc : compile p = some t) (q : List Int) (i j : Nat)
    (h : Den q (toRx t) i j) : i + minSize t ≤ j := min_den q t (compile_negOk hc) i j h

/-- **C17.** The heuristics do not change the minimum match size. -/
theorem C17_min_size_kept (p : List Int) (b t : Node) (hb : build p = some b) (hc : compile p = some t) : minSize t = minSize b := by
  have : ∀ k (b : Node), minSize (rounds k b) = minSize b := by
    intro k
    induction k with
    | zero => intro b; rfl
    | succ k ih => intro b; simp only [rounds]; rw [ih, minSize_opt]
  simp only [compile, hb] at hc
  obtain ⟨k, rfl⟩ := optFix_rounds _ _ _ hc
  exact this k b

-- sizes of some patterns; the last one is `2^32` and wraps to 0
example : ["abc", "a|bcd", "b?c+d{2,}", "(ab|c)*d", "[^ab]x", "^$", "(?:a{65536}){65536}"].map
    (fun p => (compile (str p)).map minSize) = [some 3, some 1, some 3, some 1, some 2, some 0, some 0] := by decide +kernel
-- the bound is met: `b?c+d{2,}` denotes a text of length 3
example : (build (str "b?c+d{2,}")).map (fun b => ends (str "cdd") (toRx b) 0) = some [3] := by decide +kernel

/-! ## C46 -/

/-- **C46 (partial).** For every tree that meets `maxOk` (no wrapping; in a sequence or an alternation only the first part may
vary in size; nothing after an exact repetition or group inside the tree), every query and place: no text denoted by the tree is
longer than the maximum match size computed for it, unless that is `2^32 - 1` ("unbounded").  Missing: the other trees, for which
the claim is false of the code. -/
theorem C46_max_size_upper_bound_partial (t : Node) (ho : maxOk t = true) (hl : maxSize t < 4294967295) (q : List Int) (i j : Nat)
    (h : Den q (toRx t) i j) : j ≤ i + maxSize t := max_den q t ho hl i j h

/-- **C46 (partial).** If moreover the two sizes of a compiled pattern agree, all texts denoted have that length. -/
theorem C46_fixed_width_partial (p : List Int) (t : Node) (hc : compile p = some t) (ho : maxOk t = true)
    (he : minSize t = maxSize t) (hl : maxSize t < 4294967295) (q : List Int) (i j : Nat) (h : Den q (toRx t) i j) : j = i + maxSize t := by
  have h1 := max_den q t ho hl i j h
  have h2 := C17_min_size_compiled p t hc q i j h
  omega

-- the hypotheses are met by fixed-size patterns and by some of variable size
example : ["abc", "ab|cd", "[a-z]\\d", "(ab)", "(?:ab){3}", "a{2,5}", "a?b", "[^a]b"].map (fun p => (compile (str p)).map (fun t =>
    (maxOk t, minSize t, maxSize t))) = [some (true, 3, 3), some (true, 2, 2), some (true, 2, 2), some (true, 2, 2),
      some (true, 6, 6), some (true, 2, 5), some (true, 1, 2), some (true, 2, 2)] := by decide +kernel

/-- The pattern `p` matches `s` at 0 according to its language, but the library finds no match in `s`. -/
def Overlooks (p s : String) : Prop := ∃ b t st j, build (str p) = some b ∧ compile (str p) = some t ∧
  construct (lit s) t 100 = .ok st ∧ st.accepted = false ∧ Den (str s) (toRx b) 0 j

/-- Checking `Overlooks`. -/
def overlooks (p s : String) : Bool :=
  match build (str p), compile (str p) with
  | some b, some t =>
    match construct (lit s) t 100 with
    | .ok st => !st.accepted && !(ends (str s) (toRx b) 0).isEmpty
    | _ => false
  | _, _ => false

theorem overlooks_of {p s : String} (h : overlooks p s = true) : Overlooks p s := by
  simp only [overlooks] at h
  split at h
  · rename_i b t hb ht
    split at h
    · rename_i st hst
      simp only [Bool.and_eq_true, Bool.not_eq_true', List.isEmpty_eq_false_iff] at h
      obtain ⟨j, hj⟩ := List.exists_mem_of_ne_nil _ h.2
      exact ⟨b, t, st, j, hb, ht, hst, h.1, (den_iff_ends (by simp)).2 hj⟩
    · simp at h
  · simp at h

/-- **C46, refuted.** The maximum size of `ab*` is computed as 1, that of `a{2}b` as 2 (equal to the minimum in both cases), although
they denote `abb` and `aab`; … -/
theorem C46_refuted : ["ab*", "a{2}b"].map (fun p => (compile (str p)).map (fun t => (minSize t, maxSize t))) =
      [some (1, 1), some (2, 2)] ∧
    (build (str "ab*")).map (fun b => ends (str "abb") (toRx b) 0) = some [1, 2, 3] ∧
    (build (str "a{2}b")).map (fun b => ends (str "aab") (toRx b) 0) = some [3] := by decide +kernel

/-- **C46, refuted.** … as a consequence an optional group of that kind is taken for a fixed-width one and matches are lost. -/
theorem C46_refuted_lost_match : Overlooks "(?:ab*)?abb" "abb" := overlooks_of (by decide +kernel)

/-- **C46, refuted.** Unbounded quantifiers overflow: the maximum size of `(?:a*)b` is computed as 0, below its minimum of 1, and that of `(?:a*){2}` is finite. -/
theorem C46_refuted_overflow : ["(?:a*)b", "(?:a*){2}"].map (fun p => (compile (str p)).map (fun t => (minSize t, maxSize t))) =
      [some (1, 0), some (0, 4294967294)] ∧
    (build (str "(?:a*)b")).map (fun b => ends (str "aab") (toRx b) 0) = some [3] := by decide +kernel

/-! ## C43 -/

/-- The view `v` of a memory holds the text `xs`. -/
def Holding (mem : Int → Option Int) (v : Int × Int) (xs : List Int) : Prop :=
  v.2 = v.1 + xs.length ∧ ∀ k : Nat, k < xs.length → mem (v.1 + k) = xs[k]?

theorem viewEqLoop_spec (mem : Int → Option Int) : ∀ (xs ys : List Int) (a b : Int), xs.length = ys.length →
    (∀ k : Nat, k < xs.length → mem (a + k) = xs[k]?) → (∀ k : Nat, k < ys.length → mem (b + k) = ys[k]?) →
    viewEqLoop mem a b xs.length = some (decide (xs = ys))
  | [], [], _, _, _, _, _ => by simp [viewEqLoop]
  | [], _ :: _, _, _, h, _, _ => by simp at h
  | _ :: _, [], _, _, h, _, _ => by simp at h
  | x :: xs, y :: ys, a, b, h, ha, hb => by
    have h0 := ha 0 (by simp)
    have h1 := hb 0 (by simp)
    simp only [Int.natCast_zero, Int.add_zero, List.getElem?_cons_zero] at h0 h1
    simp only [List.length_cons, viewEqLoop, h0, h1]
    split
    · rename_i hne
      simp [hne]
    · rename_i he
      have he : x = y := by simpa using he
      rw [viewEqLoop_spec mem xs ys (a + 1) (b + 1) (by simpa using h)]
      · simp [he]
      · intro k hk
        have := ha (k + 1) (by simp; omega)
        rw [List.getElem?_cons_succ] at this
        rw [← this]; congr 1; push_cast; omega
      · intro k hk
        have := hb (k + 1) (by simp; omega)
        rw [List.getElem?_cons_succ] at this
        rw [← this]; congr 1; push_cast; omega

/-- **C43.** For all memories, two views of readable text and the texts they hold: the comparison is defined and tells whether the
texts are equal, wherever they are stored (also if the views overlap or are the same). -/
theorem C43_view_comparison (mem : Int → Option Int) (v w : Int × Int) (xs ys : List Int) (hv : Holding mem v xs)
    (hw : Holding mem w ys) : viewEq mem v w = some (decide (xs = ys)) := by
  unfold viewEq
  split
  · rename_i h
    have hl : xs.length = ys.length := by have := hv.1; have := hw.1; omega
    have : xs = ys := by
      apply List.ext_getElem? 
      intro k
      by_cases hk : k < xs.length
      · rw [← hv.2 k hk, ← hw.2 k (by omega), h.1]
      · rw [List.getElem?_eq_none (by omega), List.getElem?_eq_none (by omega)]
    simp [this]
  · split
    · rename_i hne
      have : xs ≠ ys := by
        rintro rfl
        have := hv.1; have := hw.1
        omega
      simp [this]
    · rename_i hl
      have e : (v.2 - v.1).toNat = xs.length := by have := hv.1; omega
      rw [e]
      exact viewEqLoop_spec mem xs ys v.1 w.1 (by have := hv.1; have := hw.1; omega) hv.2 hw.2

/-- **C43.** The default view compares equal exactly to the empty views. -/
theorem C43_null_comparison (cx : Ctx) (v : Int × Int) (xs : List Int) (hv : Holding cx.read v xs) :
    viewEqO cx none none = some true ∧ viewEqO cx (some v) none = some (decide (xs = [])) ∧
    viewEqO cx none (some v) = some (decide (xs = [])) := by
  have hl : (v.2 - v.1 = 0) ↔ xs = [] := by
    have := hv.1
    rw [← List.length_eq_zero_iff]; omega
  simp [viewEqO, hl]

-- two places with the same text, two with different ones
example : viewEq (lit "abcab").read (0, 2) (3, 5) = some true ∧ viewEq (lit "abcab").read (0, 2) (1, 3) = some false := by decide +kernel
example : Holding (lit "abcab").read (3, 5) (str "ab") :=
  ⟨rfl, fun k hk => match k, hk with | 0, _ => by decide +kernel | 1, _ => by decide +kernel | k + 2, hk => absurd hk (by simp [str])⟩

/-! ## C34 -/

/-- The texts obtained from a result by reading it and calling `next()` until it is not accepted. -/
inductive Texts (cx : Ctx) (t : Node) (fuel : Nat) : St → List View → Prop
  | stop {st : St} : st.accepted = false → Texts cx t fuel st []
  | step {st st' : St} {vs : List View} : st.accepted = true → next cx t fuel st = .ok st' → Texts cx t fuel st' vs →
      Texts cx t fuel st (toView st :: vs)

/-- The loop condition `it != r.end()`. -/
theorem neqR_end (it r : St) : neqR it (endR r) = it.accepted := by simp [neqR, endR]

theorem visit_texts (cx : Ctx) (t : Node) (fuel : Nat) (r : St) : ∀ (n : Nat) (it : St) (vs : List View),
    visit cx t fuel (endR r) n it = some (vs, true) ↔ Texts cx t fuel it vs ∧ vs.length ≤ n := by
  intro n
  induction n with
  | zero =>
    intro it vs
    simp only [visit, neqR_end]
    constructor
    · intro h
      simp at h
      rw [h.1]; exact ⟨.stop h.2, by simp⟩
    · rintro ⟨h, hl⟩
      cases h with
      | stop h => simp [h]
      | step _ _ _ => simp at hl
  | succ n ih =>
    intro it vs
    simp only [visit, neqR_end]
    split
    · rename_i ha
      constructor
      · intro h
        split at h
        · rename_i it' hn
          simp only [Option.map_eq_some_iff] at h
          obtain ⟨⟨ws, fl⟩, hv, h⟩ := h
          simp only [Prod.mk.injEq] at h
          obtain ⟨rfl, rfl⟩ := h
          obtain ⟨h1, h2⟩ := (ih it' ws).1 hv
          exact ⟨.step ha hn h1, by simpa using h2⟩
        · simp at h
      · rintro ⟨h, hl⟩
        cases h with
        | stop h => rw [ha] at h; simp at h
        | step _ hn h =>
          rw [hn]
          simp only
          rw [(ih _ _).2 ⟨h, by simpa using hl⟩]
          rfl
    · rename_i ha
      have ha : it.accepted = false := by simpa using ha
      constructor
      · intro h; simp at h; rw [h]; exact ⟨.stop ha, by simp⟩
      · rintro ⟨h, hl⟩
        cases h with
        | stop h => rfl
        | step h _ _ => rw [ha] at h; simp at h

/-- **C34.** For every tree, query, memory and result `r` (whatever was done with it before): a range-for over `r` ends within `n`
steps, having visited the texts `vs`, exactly if `vs` are the texts obtained by matching the query afresh and calling `next()`
until it is not accepted, and they are at most `n`. -/
theorem C34_range_for (cx : Ctx) (t : Node) (fuel n : Nat) (r : St) (vs : List View) :
    rangeFor cx t fuel n r = some (vs, true) ↔ ∃ st, construct cx t fuel = .ok st ∧ Texts cx t fuel st vs ∧ vs.length ≤ n := by
  simp only [rangeFor, beginR]
  cases hc : construct cx t fuel with
  | ok it =>
    simp only [visit_texts, Outcome.ok.injEq]
    constructor
    · intro h; exact ⟨it, rfl, h⟩
    · rintro ⟨st, rfl, h⟩; exact h
  | ub => simp
  | timeout => simp

/-- **C34.** Also if the loop does not end: the range-for does not depend on how far `r` has been advanced, only on its query. -/
theorem C34_independent (cx : Ctx) (t : Node) (fuel n : Nat) (r r' : St) : rangeFor cx t fuel n r = rangeFor cx t fuel n r' := by
  have : ∀ n it, visit cx t fuel (endR r) n it = visit cx t fuel (endR r') n it := by
    intro n
    induction n with
    | zero => intro it; simp [visit, neqR_end]
    | succ n ih => intro it; simp only [visit, neqR_end, ih]
  simp only [rangeFor, this]

/-- **C34.** The loop condition holds exactly while the result is accepted. -/
theorem C34_loop_condition (it r : St) : neqR it (endR r) = true ↔ it.accepted = true := by rw [neqR_end]

-- three matches, whatever the state of `r`
example (r : St) : ∃ t, compile (str "\\d+") = some t ∧
    rangeFor (lit "1 22 x333") t 9 5 r = some ([some (0, 1), some (2, 4), some (6, 9)], true) :=
  ⟨_, rfl, by rw [C34_independent _ _ _ _ r (initSt .any)]; decide +kernel⟩

/-! ## C33 -/

theorem visit_ends {cx : Ctx} {t : Node} (hsafe : SafeTree cx t) (hne : ∀ st, Reach cx t st → st.accepted = true → st.start < st.pos)
    {fuel : Nat} (hf : cx.query.length ≤ fuel) (r : St) : ∀ (n : Nat) (it : St), Reach cx t it → cx.qend - it.start ≤ n →
    ∃ vs, visit cx t fuel (endR r) n it = some (vs, true) ∧ (vs.length : Int) ≤ max 0 (cx.qend - it.start) := by
  intro n
  induction n with
  | zero =>
    intro it hr hn
    cases ha : it.accepted with
    | false => exact ⟨[], by simp [visit, neqR_end, ha], by simp; omega⟩
    | true =>
      have := hne it hr ha
      have := (reach_inv hsafe hr).acc ha
      simp at hn; omega
  | succ n ih =>
    intro it hr hn
    cases ha : it.accepted with
    | false => exact ⟨[], by simp [visit, neqR_end, ha], by simp; omega⟩
    | true =>
      have h1 := hne it hr ha
      have hi := reach_inv hsafe hr
      have h2 := hi.acc ha
      have h3 := hi.start
      rcases next_good hsafe fuel it (by omega) (by omega) with ⟨it', e, hfd⟩ | ⟨_, h'⟩
      · have h4 := hfd.from_le
        obtain ⟨vs, hv, hl⟩ := ih it' (.next hr e) (by push_cast at hn; omega)
        refine ⟨toView it :: vs, ?_, ?_⟩
        · simp [visit, neqR_end, ha, e, hv]
        · push_cast [List.length_cons]; omega
      · simp only [Ctx.qend] at *; omega

/-- **C33.** Every safe pattern (C18/C19) of which no accepted result is empty. -/
theorem iteration_ends {p : List Int} {t : Node} (h : compile p = some t) {nul : Bool} (hs : safe nul t = true) (cx : Ctx)
    (hnul : nul = true → cx.post.head? = some 0)
    (hne : ∀ st, Reach cx t st → st.accepted = true → st.start < st.pos) (fuel : Nat) (hf : cx.query.length ≤ fuel) (r : St) :
    ∃ vs, rangeFor cx t fuel cx.query.length r = some (vs, true) ∧ vs.length ≤ cx.query.length := by
  have hsafe := compile_safeTree h hs hnul
  have hq : cx.qend = (cx.query.length : Int) := rfl
  rcases construct_good hsafe fuel with ⟨it, e, hi⟩ | ⟨_, h'⟩
  · obtain ⟨vs, hv, hl⟩ := visit_ends hsafe hne hf r cx.query.length it (.make e) (by have := hi.start; omega)
    refine ⟨vs, by simp only [rangeFor, beginR, e, hv], ?_⟩
    have := hi.start
    omega
  · omega

/-- **C33 (partial).** For every pattern that meets the conditions of C20 and whose minimum match size is not 0, every query and
every result: the range-for ends, having visited at most as many matches as the query has characters.  Missing: the
other patterns; those that accept the empty string repeat it forever (refuted below). -/
theorem C33_iteration_ends_partial (p : List Int) (t : Node) (h : compile p = some t) (nul : Bool) (hs : safe nul t = true)
    (hd : snd false true t = true) (hm : 0 < minSize t) (cx : Ctx) (hnul : nul = true → cx.post.head? = some 0) (fuel : Nat)
    (hf : cx.query.length ≤ fuel) (r : St) :
    ∃ vs, rangeFor cx t fuel cx.query.length r = some (vs, true) ∧ vs.length ≤ cx.query.length := by
  refine iteration_ends h hs cx hnul ?_ fuel hf r
  intro st hr ha
  obtain ⟨b, hb⟩ : ∃ b, build p = some b := by
    cases hb : build p with
    | none => simp [compile, hb] at h
    | some b => exact ⟨b, rfl⟩
  obtain ⟨i, j, hv, hden⟩ := C20_accepted_in_language_partial p b t hb h nul hs hd cx hnul st hr ha
  have := C17_min_size_lower_bound p b hb cx.query i j hden
  rw [C17_min_size_kept p b t hb h] at hm
  simp only [toView, ha, if_true, Option.some.injEq, Prod.mk.injEq] at hv
  omega

-- the hypotheses are met by patterns of the README
example : ["\\w+", "(\\d+)-(\\d+)-(\\d+)", "[\\w.\\-]+@[\\w\\-]+\\.[\\w.]+", "a|bc|cd|d"].map (fun p => sound false p &&
    ((compile (str p)).map (fun t => decide (0 < minSize t))).getD false) = [true, true, true, true] := by decide +kernel

/-- **C33, refuted.** A pattern that accepts the empty string: on `b` the result of `a*` is the empty match at 0, `next()`
returns the same result again, and no number of steps ends the range-for. -/
theorem C33_refuted_empty_match : ∃ t, compile (str "a*") = some t ∧
    construct (bare (str "b")) t 1 = .ok ⟨0, 0, [], true⟩ ∧ next (bare (str "b")) t 1 ⟨0, 0, [], true⟩ = .ok ⟨0, 0, [], true⟩ ∧
    ∀ r n, rangeFor (bare (str "b")) t 1 n r = some (List.replicate n (some (0, 0)), false) := by
  refine ⟨.possessive (.exact [97] [97]) 0 umax [], by decide +kernel, by decide +kernel, by decide +kernel, ?_⟩
  intro r n
  have hn : next (bare (str "b")) (.possessive (.exact [97] [97]) 0 umax []) 1 ⟨0, 0, [], true⟩ = .ok ⟨0, 0, [], true⟩ := by
    decide +kernel
  have hc : construct (bare (str "b")) (.possessive (.exact [97] [97]) 0 umax []) 1 = .ok ⟨0, 0, [], true⟩ := by decide +kernel
  simp only [rangeFor, beginR, hc]
  induction n with
  | zero => simp [visit, neqR_end]
  | succ n ih => simp [visit, neqR_end, hn, ih, toView, List.replicate_succ]

end ERegex.Props

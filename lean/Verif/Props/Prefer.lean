import Verif.Proofs.PreferSearch
import Verif.Props.Sound
import Verif.Props.Leftmost
/-!
# C48 : the reported match is the one a backtracking matcher prefers

`Spec/Prefer.lean` defines, without reference to the library, the list `picks q i` of the ends of all the matches that begin at
offset `i` of the query `q`, best first (greedy: most repetitions first; lazy: fewest first; possessive: most only; alternatives
from left to right), and the condition `regular` on the pattern as written.  `compile p` is the optimized tree that is run,
`construct` and `next` are the constructor and `next()` of a match result.
-/
set_option autoImplicit false
namespace ERegex.Props
open ERegex ERegex.Spec
open ERegex.Conformance (lit m)

/-! ## the list of the specification is a list of matches -/

theorem inClass_iter {q : List Int} {S : Int → Bool} : ∀ (n i j : Nat), Iter (Den q (.cls S)) n i j ↔ j = i + n ∧ InClass q S i n
  | 0, i, j => by
    simp only [Iter, Nat.add_zero]
    exact ⟨fun h => ⟨h.symm, inClass_zero _ _ _⟩, fun h => h.1.symm⟩
  | n + 1, i, j => by
    simp only [Iter, inClass_iter n]
    constructor
    · rintro ⟨k, ⟨rfl, c, h1, h2⟩, rfl, h3⟩
      refine ⟨by omega, ?_⟩
      rw [Nat.add_comm n 1, inClass_add]
      exact ⟨inClass_one h1 h2, h3⟩
    · rintro ⟨rfl, h⟩
      rw [Nat.add_comm n 1, inClass_add] at h
      obtain ⟨c, h1, h2⟩ := h.1 0 (by omega)
      exact ⟨i + 1, ⟨rfl, c, by simpa using h1, h2⟩, by omega, h.2⟩

theorem quant_den {q : List Int} {S : Int → Bool} (k : Quant) (i j : Nat) :
    Den q (k.sem (.cls S)) i j ↔ ∃ n, Allowed k n ∧ InClass q S i n ∧ j = i + n := by
  have gen : ∀ lo hi, Den q (.rep (.cls S) lo hi) i j ↔ ∃ n, (lo ≤ n ∧ ∀ h, hi = some h → n ≤ h) ∧ InClass q S i n ∧ j = i + n := by
    intro lo hi
    have e := fun n => inClass_iter (q := q) (S := S) n i j
    rw [Den]
    simp only [e]
    constructor
    · rintro ⟨n, h1, h2, h3, h4⟩; exact ⟨n, ⟨h1, h2⟩, h4, h3⟩
    · rintro ⟨n, ⟨h1, h2⟩, h4, h3⟩; exact ⟨n, h1, h2, h3, h4⟩
  cases k with
  | once =>
    simp only [Quant.sem, Den, Allowed, Quant.lo, Quant.hi]
    constructor
    · rintro ⟨rfl, c, h1, h2⟩; exact ⟨1, ⟨Nat.le_refl _, by simp⟩, inClass_one h1 h2, rfl⟩
    · rintro ⟨n, ⟨h1, h2⟩, h3, rfl⟩
      have : n = 1 := by have := h2 1 rfl; omega
      subst this
      obtain ⟨c, h4, h5⟩ := h3 0 (by omega)
      exact ⟨rfl, c, by simpa using h4, h5⟩
  | star md => exact gen _ _
  | plus md => exact gen _ _
  | opt md => exact gen _ _
  | exact d md => exact gen _ _
  | atLeast d md => exact gen _ _
  | between d e md => exact gen _ _

theorem atom_sem (a : Atom) (h : (a.steady || a.skips) = true) : a.sem = .cls a.set := by
  cases a with
  | group => simp [Atom.steady, Atom.skips] at h
  | chr | esc | dot | hex | oct | cls => simp only [Atom.sem]; rfl

/-- No quantifier of the sequence is possessive. -/
def _root_.ERegex.Spec.Sq.backtracks : Sq → Bool
  | .nil _ => true
  | .cons _ k s => (match k.mode with | .possessive => false | _ => true) && s.backtracks

/-- No quantifier of the pattern is possessive. -/
def _root_.ERegex.Spec.Alts.backtracks : Alts → Bool
  | .last _ s => s.backtracks
  | .more _ s as => s.backtracks && as.backtracks

theorem sq_den (q : List Int) : ∀ (s : Sq), s.regular = true → ∀ (i j : Nat),
    (j ∈ s.picks q i → Den q s.sem i j) ∧ (s.backtracks = true → Den q s.sem i j → j ∈ s.picks q i)
  | .nil false, _, i, j => by
    simp only [Sq.picks, Sq.sem, Den, List.mem_singleton, Bool.false_eq_true, if_false]
    exact ⟨fun h => h.symm, fun _ h => h.symm⟩
  | .nil true, _, i, j => by
    simp only [Sq.picks, Sq.sem, Den, if_true]
    refine ⟨fun h => ?_, fun _ h => ?_⟩
    · split at h
      · rename_i e; simp at h; exact Or.inl ⟨e, h⟩
      · split at h
        · rename_i e; simp at h; exact Or.inr ⟨e, h⟩
        · simp at h
    · rcases h with ⟨h1, rfl⟩ | ⟨h1, rfl⟩
      · simp [h1]
      · have : i ≠ q.length := by rintro rfl; simp at h1
        simp [this, h1]
  | .cons a k s, h, i, j => by
    simp only [Sq.regular, Bool.and_eq_true] at h
    simp only [Sq.picks, Sq.sem, Den, List.mem_flatMap, atom_sem a h.1.1.1.2]
    refine ⟨?_, ?_⟩
    · rintro ⟨n, h1, h2⟩
      obtain ⟨h3, h4⟩ := counts_sub k _ n h1
      exact ⟨i + n, (quant_den k i _).2 ⟨n, h3, (inClass_runLen ..).2 h4, rfl⟩, (sq_den q s h.2 _ _).1 h2⟩
    · rintro hb ⟨x, h1, h2⟩
      simp only [Sq.backtracks, Bool.and_eq_true] at hb
      obtain ⟨n, h3, h4, rfl⟩ := (quant_den k i _).1 h1
      refine ⟨n, (mem_greedy k _ _ ?_).2 ⟨h3, (inClass_runLen ..).1 h4⟩, (sq_den q s h.2 _ _).2 hb.2 h2⟩
      intro hm; rw [hm] at hb; simp at hb

theorem hat_den (q : List Int) (hat : Bool) (s : Sq) (h : s.regular = true) (i j : Nat) :
    (j ∈ hatPicks q hat s i → Den q (if hat then .seq .bos s.sem else s.sem) i j) ∧
    (s.backtracks = true → Den q (if hat then .seq .bos s.sem else s.sem) i j → j ∈ hatPicks q hat s i) := by
  unfold hatPicks
  cases hat with
  | false => simpa using sq_den q s h i j
  | true =>
    simp only [Bool.true_and, if_true, Den]
    refine ⟨fun hj => ?_, ?_⟩
    · split at hj
      · simp at hj
      · rename_i hi
        simp only [bne_iff_ne, ne_eq, Decidable.not_not] at hi
        subst hi
        exact ⟨0, ⟨rfl, rfl⟩, (sq_den q s h _ _).1 hj⟩
    · rintro hb ⟨x, ⟨rfl, rfl⟩, h2⟩
      simpa using (sq_den q s h 0 j).2 hb h2

theorem alts_den (q : List Int) : ∀ (as : Alts), (∀ x ∈ as.bodies, x.2.regular = true) → ∀ (i j : Nat),
    (j ∈ as.picks q i → Den q as.sem i j) ∧ (as.backtracks = true → Den q as.sem i j → j ∈ as.picks q i)
  | .last hat s, h, i, j => hat_den q hat s (h (hat, s) (by simp [Alts.bodies])) i j
  | .more hat s as, h, i, j => by
    obtain ⟨h1, h2⟩ := hat_den q hat s (h (hat, s) (by simp [Alts.bodies])) i j
    obtain ⟨h3, h4⟩ := alts_den q as (fun x hx => h x (by simp [Alts.bodies, hx])) i j
    simp only [Alts.picks, List.mem_append, Alts.sem, Den, Alts.backtracks, Bool.and_eq_true]
    refine ⟨?_, ?_⟩
    · rintro (h | h)
      · exact Or.inl (h1 h)
      · exact Or.inr (h3 h)
    · rintro hb (h | h)
      · exact Or.inl (h2 hb.1 h)
      · exact Or.inr (h4 hb.2 h)

/-- **C48, sanity of the specification.** The ends in the list are ends of matches of the pattern as written; without possessive
quantifiers every match is in the list. -/
theorem C48_list_of_matches (as : Alts) (hr : as.regular = true) (q : List Int) (i j : Nat) :
    (j ∈ as.picks q i → Den q as.sem i j) ∧ (as.backtracks = true → Den q as.sem i j → j ∈ as.picks q i) :=
  alts_den q as (fun x hx => (bodies_ok as hr x hx).1) i j

/-! ## the result -/

/-- Among the matches of `as` in `q` that begin at or after `frm`, `s` is where the leftmost ones begin, and `e` is the end of
the best of these. -/
def Preferred (q : List Int) (as : Alts) (frm s e : Nat) : Prop :=
  frm ≤ s ∧ (as.picks q s).head? = some e ∧ ∀ x, frm ≤ x → x < s → as.picks q x = []

theorem best_nil {q : List Int} {as : Alts} {x : Nat} (h : ¬ Some2 (Best q as) x) : as.picks q x = [] := by
  rw [best_some] at h
  cases hp : as.picks q x with
  | nil => rfl
  | cons a l => rw [hp] at h; simp at h

/-- **C48 (partial).** Every regular pattern compiles, and matching it against any query (of `char` values, shorter than 2^32-1)
returns the match that a backtracking matcher prefers: the leftmost start and, there, the best end.  If the result is not
accepted there is no match that begins at 0 or before the end of the query.  Missing: groups, and patterns that are not regular,
for many of which it is false (C20, C22, C23, C26, C30). -/
theorem C48_preferred_partial (as : Alts) (hr : as.regular = true) (hc : ∀ c ∈ as.spell, c ∈ allChars) :
    ∃ t, compile as.spell = some t ∧
      ∀ (cx : Ctx), (∀ c ∈ cx.query, c ∈ allChars) → cx.query.length < 4294967295 → (as.dollar = true → cx.post.head? = some 0) →
        ∀ (fuel : Nat), cx.query.length ≤ fuel → ∃ st, construct cx t fuel = .ok st ∧
          (st.accepted = true → ∃ s e : Nat, toView st = some ((s : Int), (e : Int)) ∧ Preferred cx.query as 0 s e) ∧
          (st.accepted = false → ∀ x, (x = 0 ∨ x < cx.query.length) → as.picks cx.query x = []) := by
  obtain ⟨t, ht, hw⟩ := compile_whole as hr hc
  refine ⟨t, ht, fun cx hq hlen hn fuel hfuel => ?_⟩
  have ha := regular_attempts hr (Or.inl rfl) hw hlen hq hn
  rcases construct_good ha.good fuel with ⟨st, e1, hi⟩ | ⟨_, h2⟩
  · have hl := construct_left ha e1
    have hs := hi.start
    refine ⟨st, e1, fun hacc => ?_, fun hrej x hx => best_nil (hl.miss hrej x hx)⟩
    obtain ⟨s, s1, _, s2, s3⟩ := hl.hit hacc
    refine ⟨s, off st, ?_, Nat.zero_le _, s2, fun x _ hx => best_nil (fun h => ?_)⟩
    · simp only [toView, hacc, if_true, Option.some.injEq, Prod.mk.injEq]
      unfold off; omega
    · have := s3 x h; omega
  · simp only [Ctx.qend] at h2; omega

/-- The search from any position. -/
theorem regular_from (as : Alts) (hr : as.regular = true) (hc : ∀ c ∈ as.spell, c ∈ allChars) :
    ∃ t, compile as.spell = some t ∧
      ∀ (cx : Ctx), (∀ c ∈ cx.query, c ∈ allChars) → cx.query.length < 4294967295 → (as.dollar = true → cx.post.head? = some 0) →
        (∀ st, Reach cx t st → 0 ≤ st.pos ∧ st.pos ≤ cx.qend + 1) ∧
        ∀ (fuel : Nat), cx.query.length ≤ fuel → ∀ (st : St) (i : Nat), st.pos = i → st.pos ≤ cx.qend + 1 →
          ∃ st', next cx t fuel st = .ok st' ∧
            (st'.accepted = true → ∃ s e : Nat, toView st' = some ((s : Int), (e : Int)) ∧ Preferred cx.query as i s e) ∧
            (st'.accepted = false → ∀ x, i ≤ x → x < cx.query.length → as.picks cx.query x = []) := by
  obtain ⟨t, ht, hw⟩ := compile_whole as hr hc
  refine ⟨t, ht, fun cx hq hlen hn => ?_⟩
  have ha := regular_attempts hr (Or.inl rfl) hw hlen hq hn
  refine ⟨fun st hreach => inv_pos (reach_inv ha.good hreach), fun fuel hfuel st i hpos hle => ?_⟩
  have h0 : 0 ≤ st.pos := by omega
  rcases next_good ha.good fuel st h0 hle with ⟨st', e1, hi⟩ | ⟨_, h2⟩
  · have hl := next_left ha h0 e1
    have hoff : off st = i := by unfold off; omega
    rw [hoff] at hl
    refine ⟨st', e1, fun hacc => ?_, fun hrej x hx1 hx2 => best_nil (hl.miss hrej x hx1 hx2)⟩
    obtain ⟨s, s1, s2, _, s3, s4⟩ := hl.hit hacc
    have hp := hi.acc hacc
    have hf := hi.from_le
    refine ⟨s, off st', ?_, s2, s3, fun x hx hlt => best_nil (fun h => ?_)⟩
    · simp only [toView, hacc, if_true, Option.some.injEq, Prod.mk.injEq]
      unfold off; omega
    · have := s4 x hx h; omega
  · simp only [Ctx.qend] at h2; omega

theorem view_pos {st : St} {f i : Nat} (hv : toView st = some ((f : Int), (i : Int))) : st.pos = i := by
  simp only [toView] at hv
  split at hv
  · simp only [Option.some.injEq, Prod.mk.injEq] at hv; exact hv.2
  · simp at hv

/-- **C48 (partial).** The same for `next()` on any accepted result obtained so far: the preferred match among those that begin at
or after the end of the previous one, and failure only if none begins before the end of the query. -/
theorem C48_next_partial (as : Alts) (hr : as.regular = true) (hc : ∀ c ∈ as.spell, c ∈ allChars) :
    ∃ t, compile as.spell = some t ∧
      ∀ (cx : Ctx), (∀ c ∈ cx.query, c ∈ allChars) → cx.query.length < 4294967295 → (as.dollar = true → cx.post.head? = some 0) →
        ∀ (fuel : Nat), cx.query.length ≤ fuel → ∀ (st : St), Reach cx t st → ∀ f i : Nat, toView st = some ((f : Int), (i : Int)) →
          ∃ st', next cx t fuel st = .ok st' ∧
            (st'.accepted = true → ∃ s e : Nat, toView st' = some ((s : Int), (e : Int)) ∧ Preferred cx.query as i s e) ∧
            (st'.accepted = false → ∀ x, i ≤ x → x < cx.query.length → as.picks cx.query x = []) := by
  obtain ⟨t, ht, hall⟩ := regular_from as hr hc
  refine ⟨t, ht, fun cx hq hlen hn fuel hfuel st hreach f i hv => ?_⟩
  obtain ⟨h1, h2⟩ := hall cx hq hlen hn
  exact h2 fuel hfuel st i (view_pos hv) (h1 st hreach).2

/-! ## the hypotheses are met -/

/-- Letter. -/
private def a (c : Char) : Atom := .chr c.toNat
private def sq (l : List (Atom × Quant)) (dollar : Bool) : Sq := l.foldr (fun x s => .cons x.1 x.2 s) (.nil dollar)
private def word : Atom := .esc 119
private def lower : Atom := .cls false [.rng 97 122] false

/-- `[a-z]+@\w+\.com` -/
def mailPattern : Alts := .last false (sq [(lower, .plus .greedy), (a '@', .once), (word, .plus .greedy), (.esc 46, .once), (a 'c', .once),
  (a 'o', .once), (a 'm', .once)] false)
example : mailPattern.regular = true ∧ mailPattern.spell = str "[a-z]+@\\w+\\.com" ∧ ∀ c ∈ mailPattern.spell, c ∈ allChars := by decide +kernel
example : mailPattern.picks (str "me@x.com") 0 = [8] := by decide +kernel

/-- `"[^"]*"|<.*?>` -/
def quotedPattern : Alts :=
  .more false (sq [(a '"', .once), (.cls true [.chr 34] false, .star .greedy), (a '"', .once)] false)
    (.last false (sq [(a '<', .once), (.dot, .star .lazy), (a '>', .once)] false))
example : quotedPattern.regular = true ∧ quotedPattern.spell = str "\"[^\"]*\"|<.*?>" ∧ ∀ c ∈ quotedPattern.spell, c ∈ allChars := by decide +kernel
example : quotedPattern.picks (str "<a><b>") 0 = [3, 6] ∧ m "\"[^\"]*\"|<.*?>" "<a><b>" = some [some "<a>"] := by decide +kernel

/-- `^a*ab*$|cb{2}\d*+x` -/
def mixedPattern : Alts :=
  .more true (sq [(a 'a', .star .greedy), (a 'a', .once), (a 'b', .star .greedy)] true)
    (.last false (sq [(a 'c', .once), (a 'b', .exact [50] .greedy), (.esc 100, .star .possessive), (a 'x', .once)] false))
example : mixedPattern.regular = true ∧ mixedPattern.spell = str "^a*ab*$|cb{2}\\d*+x" ∧ mixedPattern.dollar = true ∧
    ∀ c ∈ mixedPattern.spell, c ∈ allChars := by decide +kernel
example : mixedPattern.picks (str "aaab") 0 = [4] ∧ m "^a*ab*$|cb{2}\\d*+x" "aaab" = some [some "aaab"] := by decide +kernel
example : mixedPattern.picks (str "zcbb1x") 1 = [6] ∧ m "^a*ab*$|cb{2}\\d*+x" "zcbb1x" = some [some "cbb1x"] := by decide +kernel

/-- `x.*a` -/
def backtrackPattern : Alts := .last false (sq [(a 'x', .once), (.dot, .star .greedy), (a 'a', .once)] false)
example : backtrackPattern.regular = true ∧ backtrackPattern.backtracks = true ∧ backtrackPattern.picks (str "xabab") 0 = [4, 2] ∧
    m "x.*a" "xabab" = some [some "xaba"] := by decide +kernel

/-- `\d+\.?\d*`: what follows the first loop can begin with a digit, and can match nothing -/
def decimalPattern : Alts := .last false (sq [(.esc 100, .plus .greedy), (.esc 46, .opt .greedy), (.esc 100, .star .greedy)] false)
example : decimalPattern.regular = true ∧ decimalPattern.spell = str "\\d+\\.?\\d*" ∧ (∀ c ∈ decimalPattern.spell, c ∈ allChars) ∧
    (decimalPattern.picks (str "v12.5x") 1).head? = some 5 ∧ m "\\d+\\.?\\d*" "v12.5x" = some [some "12.5"] := by decide +kernel

/-! ## where it is false -/

/-- The preferred match of a pattern that is not regular. -/
def lazyPattern : Alts := .last false (sq [(a 'a', .plus .lazy)] false)
/-- **C48 is false of `a+?`**: the best match in `aaa` is `a`, the library reports `aaa` (the lazy quantifier has become
possessive). -/
theorem C48_refuted_lazy : lazyPattern.spell = str "a+?" ∧ lazyPattern.picks (str "aaa") 0 = [1, 2, 3] ∧ m "a+?" "aaa" = some [some "aaa"] := by
  decide +kernel

/-- `aa?a` -/
def optPattern : Alts := .last false (sq [(a 'a', .once), (a 'a', .opt .greedy), (a 'a', .once)] false)
/-- **C48 is false of `aa?a`**: there is no match in `ab`, the library reports `a`. -/
theorem C48_refuted_optional : optPattern.spell = str "aa?a" ∧ optPattern.picks (str "ab") 0 = [] ∧ m "aa?a" "ab" = some [some "a"] := by
  decide +kernel

end ERegex.Props

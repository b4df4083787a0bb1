import Verif.Props.Iterate
import Verif.Props.Prefer
import Verif.Props.Heuristics
import Verif.Props.Capture
/-!
# C14 : the heuristics do not alter the results, for patterns as written

`build p` is the tree of the pattern as written, `compile p` the tree after the heuristics.
-/
set_option autoImplicit false
namespace ERegex.Props
open ERegex ERegex.Spec
open ERegex.Conformance (lit m)

/-- The result of matching and then calling `next()` `n` times. -/
def nth (cx : Ctx) (t : Node) (fuel : Nat) : Nat → Outcome
  | 0 => construct cx t fuel
  | n + 1 => match nth cx t fuel n with
    | .ok st => next cx t fuel st
    | o => o

/-- Both results report the same text or none; `O` compares what else accepted results report. -/
def Alike (O : St → St → Prop) (a b : St) : Prop :=
  a.accepted = b.accepted ∧ (a.accepted = true → a.start = b.start ∧ a.pos = b.pos ∧ O a b)

theorem alike_view {O : St → St → Prop} {a b : St} (h : Alike O a b) : toView a = toView b := by
  unfold toView
  rw [← h.1]
  split
  · rename_i ha
    obtain ⟨h1, h2, _⟩ := h.2 ha
    rw [h1, h2]
  · rfl

section
variable {cx : Ctx} {b t : Node} {B : Nat → Prop} {Rb Rt : Nat → St → Prop} {O : St → St → Prop}
  (hb : AttemptsG cx b B Rb) (ht : AttemptsG cx t B Rt)
  (hBb : ∀ s st, Rb s st → B s) (hBt : ∀ s st, Rt s st → B s)
  (hO : ∀ s x y, x.accepted = true → y.accepted = true → 0 ≤ x.pos → 0 ≤ y.pos → Rb s x → Rt s y → x.pos = y.pos ∧ O x y)
include hb ht hBb hBt hO

theorem same_construct {fuel : Nat} (hf : cx.query.length ≤ fuel) :
    ∃ x y, construct cx b fuel = .ok x ∧ construct cx t fuel = .ok y ∧ Alike O x y := by
  rcases construct_good hb.good fuel with ⟨x, e1, i1⟩ | ⟨_, h2⟩
  · rcases construct_good ht.good fuel with ⟨y, e2, i2⟩ | ⟨_, h2⟩
    · have l1 := construct_left hb e1
      have l2 := construct_left ht e2
      have p1 := i1.start
      have p2 := i2.start
      refine ⟨x, y, e1, e2, ?_, fun ha => ?_⟩
      · cases ha : x.accepted with
        | true =>
          obtain ⟨s, s1, s2, s3, s4⟩ := l1.hit ha
          cases hc : y.accepted with
          | true => rfl
          | false => exact absurd (hBb _ _ s3) (l2.miss hc s s2)
        | false =>
          cases hc : y.accepted with
          | false => rfl
          | true =>
            obtain ⟨s, s1, s2, s3, s4⟩ := l2.hit hc
            exact absurd (hBt _ _ s3) (l1.miss ha s s2)
      · obtain ⟨s, s1, s2, s3, s4⟩ := l1.hit ha
        have hc : y.accepted = true := by
          cases hc : y.accepted with
          | true => rfl
          | false => exact absurd (hBb _ _ s3) (l2.miss hc s s2)
        obtain ⟨r, r1, r2, r3, r4⟩ := l2.hit hc
        have : s = r := Nat.le_antisymm (s4 r (hBt _ _ r3)) (r4 s (hBb _ _ s3))
        subst this
        have := hO s x y ha hc (by omega) (by omega) s3 r3
        exact ⟨by omega, this.1, this.2⟩
    · simp only [Ctx.qend] at h2; omega
  · simp only [Ctx.qend] at h2; omega

theorem same_next {fuel : Nat} (hf : cx.query.length ≤ fuel) {x y : St} (hx : Reach cx b x) (hy : Reach cx t y) (h : Alike O x y) :
    ∃ x' y', next cx b fuel x = .ok x' ∧ next cx t fuel y = .ok y' ∧ Alike O x' y' := by
  have ix := reach_inv hb.good hx
  have iy := reach_inv ht.good hy
  have bx := inv_pos ix
  have by' := inv_pos iy
  rcases next_good hb.good fuel x bx.1 bx.2 with ⟨x', e1, f1⟩ | ⟨_, h2⟩
  · rcases next_good ht.good fuel y by'.1 by'.2 with ⟨y', e2, f2⟩ | ⟨_, h2⟩
    · refine ⟨x', y', e1, e2, ?_⟩
      have l1 := next_left hb bx.1 e1
      have l2 := next_left ht by'.1 e2
      have g1 := f1.from_le
      have g2 := f2.from_le
      cases ha : x.accepted with
      | false =>
        -- both have come to the end
        have hc := h.1
        rw [ha] at hc
        have r1 := ix.rej ha
        have r2 := iy.rej hc.symm
        have k1 : x'.accepted = false := by
          cases k : x'.accepted with
          | false => rfl
          | true => have := f1.acc k; omega
        have k2 : y'.accepted = false := by
          cases k : y'.accepted with
          | false => rfl
          | true => have := f2.acc k; omega
        exact ⟨by rw [k1, k2], fun k => by rw [k1] at k; cases k⟩
      | true =>
        obtain ⟨_, hp, _⟩ := h.2 ha
        have hoff : off x = off y := by unfold off; rw [hp]
        rw [hoff] at l1
        have key1 : x'.accepted = true → y'.accepted = true := by
          intro k
          obtain ⟨s, s1, s2, s3, s4, s5⟩ := l1.hit k
          cases hc : y'.accepted with
          | true => rfl
          | false => exact absurd (hBb _ _ s4) (l2.miss hc s s2 s3)
        have key2 : y'.accepted = true → x'.accepted = true := by
          intro k
          obtain ⟨s, s1, s2, s3, s4, s5⟩ := l2.hit k
          cases hc : x'.accepted with
          | true => rfl
          | false => exact absurd (hBt _ _ s4) (l1.miss hc s s2 s3)
        refine ⟨?_, fun k => ?_⟩
        · cases k : x'.accepted with
          | true => rw [key1 k]
          | false =>
            cases k' : y'.accepted with
            | false => rfl
            | true => rw [key2 k'] at k; cases k
        · have k' := key1 k
          obtain ⟨s, s1, s2, s3, s4, s5⟩ := l1.hit k
          obtain ⟨r, r1, r2, r3, r4, r5⟩ := l2.hit k'
          have : s = r := Nat.le_antisymm (s5 r r2 (hBt _ _ r4)) (r5 s s2 (hBb _ _ s4))
          subst this
          have a1 := f1.acc k
          have a2 := f2.acc k'
          have := hO s x' y' k k' (by omega) (by omega) s4 r4
          exact ⟨by omega, this.1, this.2⟩
    · simp only [Ctx.qend] at h2; omega
  · simp only [Ctx.qend] at h2; omega

theorem same_nth {fuel : Nat} (hf : cx.query.length ≤ fuel) (n : Nat) :
    ∃ x y, nth cx b fuel n = .ok x ∧ nth cx t fuel n = .ok y ∧ Alike O x y ∧ Reach cx b x ∧ Reach cx t y := by
  induction n with
  | zero =>
    obtain ⟨x, y, e1, e2, h⟩ := same_construct hb ht hBb hBt hO hf
    exact ⟨x, y, e1, e2, h, .make e1, .make e2⟩
  | succ n ih =>
    obtain ⟨x, y, e1, e2, h, h1, h2⟩ := ih
    obtain ⟨x', y', e3, e4, h'⟩ := same_next hb ht hBb hBt hO hf h1 h2 h
    exact ⟨x', y', by simp only [nth, e1, e3], by simp only [nth, e2, e4], h', .next h1 e3, .next h2 e4⟩

theorem same_visit {fuel : Nat} (hf : cx.query.length ≤ fuel) (r r' : St) : ∀ (n : Nat) (x y : St), Reach cx b x → Reach cx t y → Alike O x y →
    visit cx b fuel (endR r) n x = visit cx t fuel (endR r') n y := by
  intro n
  induction n with
  | zero => intro x y _ _ h; simp [visit, neqR_end, h.1]
  | succ n ih =>
    intro x y hx hy h
    obtain ⟨x', y', e1, e2, h'⟩ := same_next hb ht hBb hBt hO hf hx hy h
    simp only [visit, neqR_end, e1, e2, h.1, alike_view h, ih x' y' (.next hx e1) (.next hy e2) h']

theorem same_range {fuel : Nat} (hf : cx.query.length ≤ fuel) (n : Nat) (r r' : St) :
    rangeFor cx b fuel n r = rangeFor cx t fuel n r' := by
  obtain ⟨x, y, e1, e2, h⟩ := same_construct hb ht hBb hBt hO hf
  simp only [rangeFor, beginR, e1, e2]
  exact same_visit hb ht hBb hBt hO hf r r' n x y (.make e1) (.make e2) h
end

/-- **C14 (partial).** For every regular pattern (C48) whose greedy and lazy repetitions meet `robust`: the heuristics change no result.
Matching, and every later `next()`, with the tree as written and with the optimized tree report the same text (or both none), and a
range-for visits the same texts.  Missing: the other patterns, for many of which it is false (refutations in this file and in
`Heuristics.lean`). -/
theorem C14_same_results_partial (as : Alts) (hr : as.regular = true) (hk : as.robust = true) (hc : ∀ c ∈ as.spell, c ∈ allChars) :
    ∃ b t, build as.spell = some b ∧ compile as.spell = some t ∧
      ∀ (cx : Ctx), (∀ c ∈ cx.query, c ∈ allChars) → cx.query.length < 4294967295 → (as.dollar = true → cx.post.head? = some 0) →
        ∀ (fuel : Nat), cx.query.length ≤ fuel →
          (∀ n, ∃ x y, nth cx b fuel n = .ok x ∧ nth cx t fuel n = .ok y ∧ toView x = toView y) ∧
          (∀ n r r', rangeFor cx b fuel n r = rangeFor cx t fuel n r') := by
  obtain ⟨b, hb, hwb⟩ := build_whole as hr hc
  obtain ⟨t, ht, hwt⟩ := compile_whole as hr hc
  refine ⟨b, t, hb, ht, fun cx hq hlen hn fuel hf => ?_⟩
  have ab := regular_attempts hr (Or.inr hk) hwb hlen hq hn
  have at' := regular_attempts hr (Or.inl rfl) hwt hlen hq hn
  have hB : ∀ (s : Nat) (st : St), Best cx.query as s (off st) → Some2 (Best cx.query as) s := fun s st h => ⟨_, h⟩
  have hO : ∀ s (x y : St), x.accepted = true → y.accepted = true → 0 ≤ x.pos → 0 ≤ y.pos → Best cx.query as s (off x) →
      Best cx.query as s (off y) → x.pos = y.pos ∧ True := by
    intro s x y _ _ h1 h2 h3 h4
    unfold Best at h3 h4
    rw [h3] at h4
    simp only [Option.some.injEq] at h4
    unfold off at h4
    exact ⟨by omega, trivial⟩
  refine ⟨fun n => ?_, fun n r r' => same_range (O := fun _ _ => True) ab at' hB hB hO hf n r r'⟩
  obtain ⟨x, y, e1, e2, h, _⟩ := same_nth (O := fun _ _ => True) ab at' hB hB hO hf n
  exact ⟨x, y, e1, e2, alike_view h⟩

theorem accepts_right {cx : Ctx} {t : Node} {B : Nat → Prop} {R : Nat → St → Prop} (h : AttemptsG cx t B R) :
    AttemptsG cx t B (fun s st => R s st ∧ st.accepted = true) :=
  ⟨h.good, fun L s st st' h1 h2 h3 h4 h5 h6 => ⟨(h.yes L s st st' h1 h2 h3 h4 h5 h6).1, fun a => ⟨(h.yes L s st st' h1 h2 h3 h4 h5 h6).2.1 a, a⟩,
    (h.yes L s st st' h1 h2 h3 h4 h5 h6).2.2⟩⟩

/-- **C14 (partial).** The same for patterns with groups that meet the condition of C49 and `stout`: matching, and every later `next()`,
with the tree as written and with the optimized tree report the same text (or both none) and, if there is a match, the same text for
every group; and a range-for visits the same texts.  Missing: as above. -/
theorem C14_same_captures_partial (as : Alts) (hr : as.capRegular = true) (hk : as.stout = true) (hc : ∀ c ∈ as.spell, c ∈ allChars) :
    ∃ b t, build as.spell = some b ∧ compile as.spell = some t ∧
      ∀ (cx : Ctx), (∀ c ∈ cx.query, c ∈ allChars) → cx.query.length < 4294967295 → (as.dollar = true → cx.post.head? = some 0) →
        ∀ (fuel : Nat), cx.query.length ≤ fuel →
          (∀ n, ∃ x y, nth cx b fuel n = .ok x ∧ nth cx t fuel n = .ok y ∧ toView x = toView y ∧
            (x.accepted = true → ∀ k, k ≤ as.count → getGroup x k = getGroup y k)) ∧
          (∀ n r r', rangeFor cx b fuel n r = rangeFor cx t fuel n r') := by
  cases as with
  | more => simp [Alts.stout] at hk
  | last hat s =>
    have hsane : (Alts.last hat s).capSane = true := by simp only [Alts.capRegular, Bool.and_eq_true] at hr; exact hr.1
    obtain ⟨h1, h2, h3, _⟩ := sane_facts hsane
    obtain ⟨b, hb, hwb⟩ := build_root hat s h1 h2 h3 hc
    obtain ⟨t, ht, hwt⟩ := compile_root hat s h1 h2 h3 hc
    refine ⟨b, t, hb, ht, fun cx hq hlen hn fuel hf => ?_⟩
    have ab := accepts_right (regular_search hwb (Or.inr hk) hr hlen hq hn)
    have at' := accepts_right (regular_search hwt (Or.inl rfl) hr hlen hq hn)
    have hB : ∀ (i : Nat) (st : St), RightAt cx.query hat s i st ∧ st.accepted = true → capsAt cx.query hat s i ≠ [] := fun i st h => (agreesC_yes h.1).1 h.2
    have hO : ∀ i (x y : St), x.accepted = true → y.accepted = true → 0 ≤ x.pos → 0 ≤ y.pos → RightAt cx.query hat s i x ∧ x.accepted = true →
        RightAt cx.query hat s i y ∧ y.accepted = true → x.pos = y.pos ∧ ∀ k, k < s.count → x.groups[k]? = y.groups[k]? := by
      intro i x y hx hy _ _ ⟨h3, _⟩ ⟨h4, _⟩
      unfold RightAt AgreesC at h3 h4
      cases hc : (capsAt cx.query hat s i).head? with
      | none => rw [hc] at h3; simp only at h3; rw [h3] at hx; cases hx
      | some r =>
        rw [hc] at h3 h4
        refine ⟨by rw [h3.2.1, h4.2.1], fun k hk => ?_⟩
        have hmem : r ∈ caps cx.query s i := by
          have : r ∈ capsAt cx.query hat s i := List.mem_of_mem_head? hc
          unfold capsAt at this
          split at this
          · simp at this
          · exact this
        have hlen := cap_length cx.query s (capOk_shallow s h1) i r hmem
        have hlt : k < r.2.length := by omega
        have e1 := h3.2.2 k r.2[k] (List.getElem?_eq_getElem hlt)
        have e2 := h4.2.2 k r.2[k] (List.getElem?_eq_getElem hlt)
        rw [Nat.zero_add] at e1 e2
        rw [e1, e2]
    refine ⟨fun n => ?_, fun n r r' => same_range ab at' hB hB hO hf n r r'⟩
    obtain ⟨x, y, e1, e2, h, _⟩ := same_nth ab at' hB hB hO hf n
    refine ⟨x, y, e1, e2, alike_view h, fun ha k hk => ?_⟩
    cases k with
    | zero => simp only [getGroup, if_true, alike_view h]
    | succ k =>
      have := (h.2 ha).2.2 k (by simp only [Alts.count] at hk; omega)
      simp only [getGroup, Nat.add_one_ne_zero, if_false, Nat.add_sub_cancel, this]

/-! ## the hypotheses are met -/

private def a (c : Char) : Atom := .chr c.toNat
private def sq (l : List (Atom × Quant)) (dollar : Bool) : Sq := l.foldr (fun x s => .cons x.1 x.2 s) (.nil dollar)

-- `[a-z]+@\w+\.com`, `^a*ab*$|cb{2}\d*+x`, `x.*a`
example : mailPattern.regular = true ∧ mailPattern.robust = true ∧ mixedPattern.regular = true ∧ mixedPattern.robust = true ∧
    backtrackPattern.regular = true ∧ backtrackPattern.robust = true := by decide +kernel
-- the heuristics do change these trees
example : bothTrees "[a-z]+@\\w+\\.com" "to me@x.com" = some ((true, 3, 11), (true, 3, 11)) ∧
    build (str "[a-z]+@\\w+\\.com") ≠ compile (str "[a-z]+@\\w+\\.com") := by
  refine ⟨by decide +kernel, ?_⟩
  intro h
  have := congrArg (Option.map (fun t => match t with | .alt ts => ts.length | _ => 0)) h
  revert this
  decide +kernel
-- `<.*?>`, `a{2,3}b*`; not `\w+\sx`: `\s` moves when it fails
example :
    (Alts.last false (sq [(a '<', .once), (.dot, .star .lazy), (a '>', .once)] false)).robust = true ∧
    (Alts.last false (sq [(.esc 119, .plus .greedy), (.esc 115, .once), (a 'x', .once)] false)).robust = false ∧
    (Alts.last false (sq [(a 'a', .between [50] [51] .greedy), (a 'b', .star .greedy)] false)).regular = true ∧
    (Alts.last false (sq [(a 'a', .between [50] [51] .greedy), (a 'b', .star .greedy)] false)).robust = true := by decide +kernel

-- `^(\w+)=(\d+)$`, `x(\d+)-(a|b)c`, `(\w+)@(\w+)\.(com|it)`, `x(.*)a`, `<(.*?)>`, `^(?:\d\d:){2}(\d{2})$`; not `x(ab)+c`: the tree as written
-- looks for a place to give back when `c` fails
example : [assignPattern, choicePattern, addressPattern, giveBackPattern, tagPattern, clockPattern].all (fun p => p.capRegular && p.stout) = true ∧
    repeatPattern.capRegular = true ∧ repeatPattern.stout = false := by decide +kernel
-- the heuristics do change these trees: `\w+` becomes possessive
example : bothTrees "(\\w+)@(\\w+)\\.(com|it)" "to me@x.it" = some ((true, 3, 10), (true, 3, 10)) ∧
    build (str "(\\w+)@(\\w+)\\.(com|it)") ≠ compile (str "(\\w+)@(\\w+)\\.(com|it)") := by
  refine ⟨by decide +kernel, ?_⟩
  intro h
  have := congrArg (Option.map (fun t => match t with | .alt ts => ts.length | _ => 0)) h
  revert this
  decide +kernel

/-! ## where it is false -/

/-- **C14, refuted: the heuristics lose matches of groups.** As written, `x(ab*)b` is found in `xabb` and `x(ab*)bc` in `xabbbc`; after the
heuristics neither is: inside the group `b*` looks at nothing behind the group and becomes possessive. -/
theorem C14_refuted_lost_match : bothTrees "x(ab*)b" "xabb" = some ((true, 0, 4), (false, 4, 4)) ∧
    bothTrees "x(ab*)bc" "xabbbc" = some ((true, 0, 6), (false, 6, 6)) := by decide +kernel

/-- **C14, refuted: the heuristics repair matches.** As written, `ba?` is not found in `bx`, `a[^b]*b` not in `xaaab`, `a\s+b` not in `xa  b`
(a failed optional at the end is a failure; giving back skips characters); after the heuristics all three are found. -/
theorem C14_refuted_repairs : bothTrees "ba?" "bx" = some ((false, 2, 2), (true, 0, 1)) ∧
    bothTrees "a[^b]*b" "xaaab" = some ((false, 5, 5), (true, 1, 5)) ∧
    bothTrees "a\\s+b" "xa  b" = some ((false, 5, 5), (true, 1, 5)) := by decide +kernel
/-- **C14, refuted: the heuristics remove a wrong match.** As written, `a\s*b` reports `a  cb`, which it does not denote; after the
heuristics nothing is found. -/
theorem C14_refuted_wrong_match : bothTrees "a\\s*b" "xa  cb" = some ((true, 1, 6), (false, 6, 6)) := by decide +kernel

end ERegex.Props

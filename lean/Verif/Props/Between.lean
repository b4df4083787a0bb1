import Verif.Props.FindAll
/-!
# C22, C23, C24, C25 from the spelling of the pattern to the reported text: `c` `X` `d`

A quantified character class `X` between two characters.
-/
set_option autoImplicit false
namespace ERegex.Props
open ERegex ERegex.Spec
open ERegex.Conformance (lit m)

/-- A character, an escape other than `\s`, or a class of one item other than `\s`. -/
def simpleAtom : Atom → Bool
  | .chr _ | .hex .. | .oct .. => true
  | .esc c => c != 115
  | .cls false [i] false => i.steady
  | _ => false

theorem simple_steady {a : Atom} (h : simpleAtom a = true) : a.steady = true := by
  unfold simpleAtom at h
  split at h <;> simp_all [Atom.steady]

theorem simple_shown {a : Atom} (h : simpleAtom a = true) (x : Int) : a.shown x = a.set x := by
  unfold simpleAtom at h
  split at h <;> simp_all [Atom.shown, Atom.set, listed]

/-- The text from `s` on is a character of `c`, `n` characters of `a` (a number that the quantifier allows) and a character of `d`. -/
def Between (q : List Int) (c a : Atom) (k : Quant) (d : Atom) (s n : Nat) : Prop :=
  InClass q c.set s 1 ∧ (k.lo ≤ n ∧ ∀ h, k.hi = some h → n ≤ h) ∧ InClass q a.set (s + 1) n ∧ InClass q d.set (s + 1 + n) 1

/-- The pattern. -/
def between (c a : Atom) (k : Quant) (d : Atom) : Alts := .last false (.cons c .once (.cons a k (.cons d .once (.nil false))))

theorem between_spell (c a : Atom) (k : Quant) (d : Atom) : (between c a k d).spell = c.spell ++ a.spell ++ k.spell ++ d.spell := by
  simp [between, Alts.spell, Sq.spell, Quant.spell]

theorem between_regular {c a d : Atom} {k : Quant} (hc : c.ok = true ∧ c.steady = true) (ha : a.ok = true ∧ simpleAtom a = true)
    (hd : d.ok = true ∧ simpleAtom d = true) (hk : k.sane = true) (hopt : k.mode = .greedy → k.lo = 0 → k.hi ≠ some 1) :
    (between c a k d).regular = true := by
  have hsa := simple_steady ha.2
  have hsd := simple_steady hd.2
  have h1 : pieceOk c .once (.cons a k (.cons d .once (.nil false))) = true := by simp [pieceOk, Quant.mode, Quant.fixed]
  have h3 : pieceOk d .once (.nil false) = true := by simp [pieceOk, Quant.mode, Quant.fixed]
  have hm : meets a.shown (Sq.cons d .once (.nil false)).shown = meets a.set (Sq.cons d .once (.nil false)).first := by
    simp [meets, Sq.shown, Sq.first, Quant.lo, simple_shown ha.2, simple_shown hd.2]
  have h2 : pieceOk a k (.cons d .once (.nil false)) = true := by
    unfold pieceOk
    cases hmo : k.mode with
    | possessive => rfl
    | greedy =>
      simp only [keeps, hmo, hm, hsa, Sq.firm, hsd, Bool.true_or, Bool.and_true, Bool.true_and, Bool.or_eq_true]
      right
      split
      · have := hopt hmo
        grind
      · rename_i hn; simp [hn]
    | lazy =>
      simp only [keeps, hmo, hm, Sq.firm, hsd, Bool.or_eq_true]
      right
      split
      · rfl
      · rename_i hn
        grind [Sq.nullable, Quant.lo]
  have h4 : Quant.once.sane = true := rfl
  simp [between, Alts.regular, altOk, Sq.regular, Sq.eats, Sq.steadyHead, Quant.lo, h1, h2, h3, h4, hc.1, hc.2, ha.1, hd.1, hsa, hsd, hk]

theorem between_picks (q : List Int) (c a : Atom) (k : Quant) (d : Atom) (i : Nat) : (between c a k d).picks q i =
    if 1 ≤ runLen c.set (q.drop i) then (k.counts (runLen a.set (q.drop (i + 1)))).flatMap
      (fun n => if 1 ≤ runLen d.set (q.drop (i + 1 + n)) then [i + 1 + n + 1] else []) else [] := by
  simp only [between, Alts.picks, hatPicks, Bool.false_and, Bool.false_eq_true, if_false, Sq.picks, counts_once]
  split
  · simp only [List.flatMap_cons, List.flatMap_nil, List.append_nil]
    congr 1
    funext n
    split <;> simp
  · rfl

theorem between_iff {q : List Int} {c a : Atom} {k : Quant} {d : Atom} {i n : Nat} : Between q c a k d i n ↔
    1 ≤ runLen c.set (q.drop i) ∧ Allowed k n ∧ n ≤ runLen a.set (q.drop (i + 1)) ∧ 1 ≤ runLen d.set (q.drop (i + 1 + n)) := by
  simp only [Between, inClass_runLen, Allowed]

theorem between_empty {q : List Int} {c a : Atom} {k : Quant} {d : Atom} {i : Nat} (hm : k.mode ≠ .possessive) :
    (between c a k d).picks q i = [] ↔ ∀ n, ¬ Between q c a k d i n := by
  rw [between_picks]
  simp only [between_iff]
  split
  · rename_i h1
    simp only [List.flatMap_eq_nil_iff, ite_eq_right_iff, List.cons_ne_nil, imp_false, mem_greedy k _ _ hm]
    constructor
    · rintro h n ⟨_, h2, h3, h4⟩; exact h n ⟨h2, h3⟩ h4
    · rintro h n ⟨h2, h3⟩ h4; exact h n ⟨h1, h2, h3, h4⟩
  · rename_i h1
    simp [h1]

theorem between_some {q : List Int} {c a : Atom} {k : Quant} {d : Atom} {i e : Nat} (h : ((between c a k d).picks q i).head? = some e) :
    ∃ n, Between q c a k d i n ∧ e = i + n + 2 := by
  have hmem := List.mem_of_mem_head? h
  rw [between_picks] at hmem
  split at hmem
  · rename_i h1
    simp only [List.mem_flatMap] at hmem
    obtain ⟨n, hn, he⟩ := hmem
    obtain ⟨h2, h3⟩ := counts_sub k _ n hn
    split at he
    · rename_i h4
      simp only [List.mem_singleton] at he
      exact ⟨n, between_iff.2 ⟨h1, h2, h3, h4⟩, by omega⟩
    · simp at he
  · simp at hmem

theorem between_greedy {q : List Int} {c a : Atom} {k : Quant} {d : Atom} {i e : Nat} (hm : k.mode = .greedy)
    (h : ((between c a k d).picks q i).head? = some e) : ∃ n, Largest (Between q c a k d i) n ∧ e = i + n + 2 := by
  obtain ⟨n0, h0, _⟩ := between_some h
  obtain ⟨n, hn, hmax⟩ : ∃ n, Between q c a k d i n ∧ ∀ m, Between q c a k d i m → m ≤ n := by
    have key : ∀ (B j : Nat), (∀ m, Between q c a k d i m → m ≤ j + B) → Between q c a k d i j →
        ∃ n, Between q c a k d i n ∧ ∀ m, Between q c a k d i m → m ≤ n := by
      intro B
      induction B with
      | zero => intro j hb hj; exact ⟨j, hj, hb⟩
      | succ B ih =>
        intro j hb hj
        by_cases hx : ∃ m, Between q c a k d i m ∧ j < m
        · obtain ⟨m, h1, h2⟩ := hx
          exact ih m (fun m' h => by have := hb m' h; omega) h1
        · refine ⟨j, hj, fun m h => ?_⟩
          rcases Nat.lt_or_ge j m with hlt | hge
          · exact absurd ⟨m, h, hlt⟩ hx
          · exact hge
    exact key (runLen a.set (q.drop (i + 1))) n0 (fun m hm => by have := (between_iff.1 hm).2.2.1; omega) h0
  refine ⟨n, ⟨hn, hmax⟩, ?_⟩
  obtain ⟨h1, h2, h3, h4⟩ := between_iff.1 hn
  rw [between_picks, if_pos h1, head_greedy hm h2 h3 (by simp [h4]) (fun m hm1 hm2 hm3 => hmax m (between_iff.2 ⟨h1, hm1, hm2, by
    by_cases hx : 1 ≤ runLen d.set (q.drop (i + 1 + m))
    · exact hx
    · simp [hx] at hm3⟩))] at h
  simp only [h4, if_true, List.head?_cons, Option.some.injEq] at h
  omega

theorem between_lazy {q : List Int} {c a : Atom} {k : Quant} {d : Atom} {i e : Nat} (hm : k.mode = .lazy)
    (h : ((between c a k d).picks q i).head? = some e) : ∃ n, Smallest (Between q c a k d i) n ∧ e = i + n + 2 := by
  obtain ⟨n0, h0, _⟩ := between_some h
  obtain ⟨n, hn, hmin⟩ : ∃ n, Between q c a k d i n ∧ ∀ m, Between q c a k d i m → n ≤ m := by
    have key : ∀ (j : Nat), Between q c a k d i j → ∃ n, Between q c a k d i n ∧ ∀ m, Between q c a k d i m → n ≤ m := by
      intro j
      induction j using Nat.strongRecOn with
      | _ j ih =>
        intro hj
        by_cases hx : ∃ m, Between q c a k d i m ∧ m < j
        · obtain ⟨m, h1, h2⟩ := hx; exact ih m h2 h1
        · refine ⟨j, hj, fun m h => ?_⟩
          rcases Nat.lt_or_ge m j with hlt | hge
          · exact absurd ⟨m, h, hlt⟩ hx
          · exact hge
    exact key n0 h0
  refine ⟨n, ⟨hn, hmin⟩, ?_⟩
  obtain ⟨h1, h2, h3, h4⟩ := between_iff.1 hn
  rw [between_picks, if_pos h1, head_lazy hm h2 h3 (by simp [h4]) (fun m hm1 hm2 hm3 => hmin m (between_iff.2 ⟨h1, hm1, hm2, by
    by_cases hx : 1 ≤ runLen d.set (q.drop (i + 1 + m))
    · exact hx
    · simp [hx] at hm3⟩))] at h
  simp only [h4, if_true, List.head?_cons, Option.some.injEq] at h
  omega

/-- Matching the pattern `p` against any query of `char` values shorter than 2^32-1 reports the first start at which some number of repetitions fits, and there the
number that `Best` names; if nothing is accepted no number fits anywhere. -/
def ReportsFirst (p : List Int) (Fits : List Int → Nat → Nat → Prop) (Best : (Nat → Prop) → Nat → Prop) : Prop :=
  ∃ t, compile p = some t ∧ ∀ (cx : Ctx), (∀ c ∈ cx.query, c ∈ allChars) → cx.query.length < 4294967295 → ∀ (fuel : Nat), cx.query.length ≤ fuel →
    ∃ st, construct cx t fuel = .ok st ∧
      (st.accepted = true → ∃ s n : Nat, toView st = some ((s : Int), ((s + n + 2 : Nat) : Int)) ∧ Best (Fits cx.query s) n ∧
        ∀ x, x < s → ∀ n, ¬ Fits cx.query x n) ∧
      (st.accepted = false → ∀ x n, ¬ Fits cx.query x n)

/-- **C22, as written.** `cXd`, where `c` is a character, an escape but `\s` or a class without `\s` that is not negated, `X` a greedy repetition other than `X?` of
a character, an escape or a class of one item, and `d` the same without quantifier: the match is the first place where some number of repetitions fits, with the largest
number that fits there. -/
theorem C22_written (c a d : Atom) (k : Quant) (hc : c.ok = true ∧ c.steady = true) (ha : a.ok = true ∧ simpleAtom a = true)
    (hd : d.ok = true ∧ simpleAtom d = true) (hk : k.sane = true) (hm : k.mode = .greedy) (hopt : k.lo = 0 → k.hi ≠ some 1)
    (hch : ∀ x ∈ c.spell ++ a.spell ++ k.spell ++ d.spell, x ∈ allChars) :
    ReportsFirst (c.spell ++ a.spell ++ k.spell ++ d.spell) (fun q => Between q c a k d) Largest := by
  obtain ⟨t, ht, h⟩ := C48_preferred_partial _ (between_regular hc ha hd hk (fun _ => hopt)) (by rw [between_spell]; exact hch)
  rw [between_spell] at ht
  have hnp : k.mode ≠ .possessive := by rw [hm]; simp
  refine ⟨t, ht, fun cx hq hl fuel hf => ?_⟩
  obtain ⟨st, h1, h2, h3⟩ := h cx hq hl (by simp [between, Alts.dollar, Sq.dollar]) fuel hf
  refine ⟨st, h1, fun hacc => ?_, fun hrej x n hb => ?_⟩
  · obtain ⟨s, e, hv, _, hp, hf⟩ := h2 hacc
    obtain ⟨n, hn, rfl⟩ := between_greedy hm hp
    exact ⟨s, n, hv, hn, fun x hx => (between_empty hnp).1 (hf x (Nat.zero_le _) hx)⟩
  · have hlen : x < cx.query.length := by
      obtain ⟨y, hy, _⟩ := hb.1 0 (by omega)
      exact (List.getElem?_eq_some_iff.1 hy).1
    exact (between_empty hnp).1 (h3 hrej x (Or.inr hlen)) n hb

/-- **C23, as written.** The same with a lazy repetition (`X??` included): the smallest number that fits. -/
theorem C23_written (c a d : Atom) (k : Quant) (hc : c.ok = true ∧ c.steady = true) (ha : a.ok = true ∧ simpleAtom a = true)
    (hd : d.ok = true ∧ simpleAtom d = true) (hk : k.sane = true) (hm : k.mode = .lazy)
    (hch : ∀ x ∈ c.spell ++ a.spell ++ k.spell ++ d.spell, x ∈ allChars) :
    ReportsFirst (c.spell ++ a.spell ++ k.spell ++ d.spell) (fun q => Between q c a k d) Smallest := by
  obtain ⟨t, ht, h⟩ := C48_preferred_partial _ (between_regular hc ha hd hk (fun h => by rw [hm] at h; cases h)) (by rw [between_spell]; exact hch)
  rw [between_spell] at ht
  have hnp : k.mode ≠ .possessive := by rw [hm]; simp
  refine ⟨t, ht, fun cx hq hl fuel hf => ?_⟩
  obtain ⟨st, h1, h2, h3⟩ := h cx hq hl (by simp [between, Alts.dollar, Sq.dollar]) fuel hf
  refine ⟨st, h1, fun hacc => ?_, fun hrej x n hb => ?_⟩
  · obtain ⟨s, e, hv, _, hp, hf⟩ := h2 hacc
    obtain ⟨n, hn, rfl⟩ := between_lazy hm hp
    exact ⟨s, n, hv, hn, fun x hx => (between_empty hnp).1 (hf x (Nat.zero_le _) hx)⟩
  · have hlen : x < cx.query.length := by
      obtain ⟨y, hy, _⟩ := hb.1 0 (by omega)
      exact (List.getElem?_eq_some_iff.1 hy).1
    exact (between_empty hnp).1 (h3 hrej x (Or.inr hlen)) n hb

/-- The text from `s` on is a character of `c`, `n` characters of `a` and a character of `d`, where `n` is the largest number of characters of `a` that
the upper bound and the text allow, and not below the lower bound. -/
def BetweenAll (q : List Int) (c a : Atom) (k : Quant) (d : Atom) (s n : Nat) : Prop :=
  Between q c a k d s n ∧ Largest (fun n => (∀ h, k.hi = some h → n ≤ h) ∧ InClass q a.set (s + 1) n) n

theorem all_iff {q : List Int} {c a : Atom} {k : Quant} {d : Atom} {i n : Nat} : BetweenAll q c a k d i n ↔
    1 ≤ runLen c.set (q.drop i) ∧ k.lo ≤ n ∧ n = k.top (runLen a.set (q.drop (i + 1))) ∧ 1 ≤ runLen d.set (q.drop (i + 1 + n)) := by
  unfold BetweenAll
  rw [between_iff]
  simp only [inClass_runLen, Largest, Allowed, ← le_top]
  constructor
  · rintro ⟨⟨h1, h2, h3, h4⟩, h5, h6⟩
    exact ⟨h1, h2.1, Nat.le_antisymm h5 (h6 _ (Nat.le_refl _)), h4⟩
  · rintro ⟨h1, h2, rfl, h4⟩
    have := (le_top k _ _).1 (Nat.le_refl (k.top (runLen a.set (q.drop (i + 1)))))
    exact ⟨⟨h1, ⟨h2, this.1⟩, this.2, h4⟩, Nat.le_refl _, fun m hm => hm⟩

theorem poss_picks {q : List Int} {c a : Atom} {k : Quant} {d : Atom} {i : Nat} (hm : k.mode = .possessive) :
    (between c a k d).picks q i = if 1 ≤ runLen c.set (q.drop i) ∧ k.lo ≤ k.top (runLen a.set (q.drop (i + 1))) ∧
      1 ≤ runLen d.set (q.drop (i + 1 + k.top (runLen a.set (q.drop (i + 1))))) then [i + 1 + k.top (runLen a.set (q.drop (i + 1))) + 1] else [] := by
  rw [between_picks]
  simp only [Quant.counts, hm]
  by_cases h1 : 1 ≤ runLen c.set (q.drop i)
  · by_cases h2 : k.lo ≤ k.top (runLen a.set (q.drop (i + 1)))
    · simp [h1, h2]
    · simp [h1, h2]
  · simp [h1]

/-- **C24, as written.** The same with a possessive repetition: all the characters that follow, up to the upper bound. -/
theorem C24_written (c a d : Atom) (k : Quant) (hc : c.ok = true ∧ c.steady = true) (ha : a.ok = true ∧ simpleAtom a = true)
    (hd : d.ok = true ∧ simpleAtom d = true) (hk : k.sane = true) (hm : k.mode = .possessive)
    (hch : ∀ x ∈ c.spell ++ a.spell ++ k.spell ++ d.spell, x ∈ allChars) :
    ReportsFirst (c.spell ++ a.spell ++ k.spell ++ d.spell) (fun q => BetweenAll q c a k d) (fun P n => P n) := by
  obtain ⟨t, ht, h⟩ := C48_preferred_partial _ (between_regular hc ha hd hk (fun h => by rw [hm] at h; cases h)) (by rw [between_spell]; exact hch)
  rw [between_spell] at ht
  refine ⟨t, ht, fun cx hq hl fuel hf => ?_⟩
  obtain ⟨st, h1, h2, h3⟩ := h cx hq hl (by simp [between, Alts.dollar, Sq.dollar]) fuel hf
  have hno : ∀ x, (between c a k d).picks cx.query x = [] → ∀ n, ¬ BetweenAll cx.query c a k d x n := by
    intro x hx n hb
    obtain ⟨g1, g2, rfl, g4⟩ := all_iff.1 hb
    rw [poss_picks hm, if_pos ⟨g1, g2, g4⟩] at hx
    simp at hx
  refine ⟨st, h1, fun hacc => ?_, fun hrej x n hb => ?_⟩
  · obtain ⟨s, e, hv, _, hp, hf⟩ := h2 hacc
    rw [poss_picks hm] at hp
    split at hp
    · rename_i hcond
      simp only [List.head?_cons, Option.some.injEq] at hp
      refine ⟨s, _, ?_, all_iff.2 ⟨hcond.1, hcond.2.1, rfl, hcond.2.2⟩, fun x hx => hno x (hf x (Nat.zero_le _) hx)⟩
      rw [hv, ← hp]
      congr 3; omega
    · simp at hp
  · have hlen : x < cx.query.length := by
      obtain ⟨y, hy, _⟩ := hb.1.1 0 (by omega)
      exact (List.getElem?_eq_some_iff.1 hy).1
    exact hno x (h3 hrej x (Or.inr hlen)) n hb

/-- **C25, as written.** `cX{n}d` reports the first place where a character of `c`, exactly `n` characters of `X` and a character of `d` follow each other, whatever suffix the
bound has. -/
theorem C25_written (c a d : Atom) (ds : List Int) (md : QMode) (hc : c.ok = true ∧ c.steady = true) (ha : a.ok = true ∧ simpleAtom a = true)
    (hd : d.ok = true ∧ simpleAtom d = true) (hb : boundB ds = true) (hn : 0 < decimal ds)
    (hch : ∀ x ∈ c.spell ++ a.spell ++ (Quant.exact ds md).spell ++ d.spell, x ∈ allChars) :
    ReportsFirst (c.spell ++ a.spell ++ (Quant.exact ds md).spell ++ d.spell)
      (fun q s n => n = (decimal ds).toNat ∧ InClass q c.set s 1 ∧ InClass q a.set (s + 1) n ∧ InClass q d.set (s + 1 + n) 1) (fun P n => P n) := by
  have hk : (Quant.exact ds md).sane = true := by simp [Quant.sane, Quant.ok, hb, Quant.hi, Quant.lo]; omega
  have hiff : ∀ (q : List Int) (s n : Nat), Between q c a (.exact ds md) d s n ↔
      (n = (decimal ds).toNat ∧ InClass q c.set s 1 ∧ InClass q a.set (s + 1) n ∧ InClass q d.set (s + 1 + n) 1) := by
    intro q s n
    simp only [Between, Quant.lo, Quant.hi, Option.some.injEq]
    constructor
    · rintro ⟨h1, ⟨h2, h3⟩, h4, h5⟩; exact ⟨Nat.le_antisymm (h3 _ rfl) h2, h1, h4, h5⟩
    · rintro ⟨rfl, h1, h4, h5⟩; exact ⟨h1, ⟨Nat.le_refl _, fun h e => by omega⟩, h4, h5⟩
  have hone : (Quant.exact ds md).lo = 0 → (Quant.exact ds md).hi ≠ some 1 := by simp only [Quant.lo]; omega
  have finish : ∀ {F : List Int → Nat → Nat → Prop} {B : (Nat → Prop) → Nat → Prop}, (∀ q s n, F q s n → Between q c a (.exact ds md) d s n) →
      (∀ q s n, Between q c a (.exact ds md) d s n → F q s n) → (∀ P n, B P n → P n) →
      ReportsFirst (c.spell ++ a.spell ++ (Quant.exact ds md).spell ++ d.spell) F B →
      ReportsFirst (c.spell ++ a.spell ++ (Quant.exact ds md).spell ++ d.spell)
        (fun q s n => n = (decimal ds).toNat ∧ InClass q c.set s 1 ∧ InClass q a.set (s + 1) n ∧ InClass q d.set (s + 1 + n) 1) (fun P n => P n) := by
    rintro F B hF hF' hB ⟨t, ht, h⟩
    refine ⟨t, ht, fun cx hq hl fuel hf => ?_⟩
    obtain ⟨st, h1, h2, h3⟩ := h cx hq hl fuel hf
    refine ⟨st, h1, fun hacc => ?_, fun hrej x n hb => h3 hrej x n (hF' _ _ _ ((hiff _ _ _).2 hb))⟩
    obtain ⟨s, n, hv, hb, hno⟩ := h2 hacc
    exact ⟨s, n, hv, (hiff _ _ _).1 (hF _ _ _ (hB _ _ hb)), fun x hx n hb => hno x hx n (hF' _ _ _ ((hiff _ _ _).2 hb))⟩
  cases md with
  | greedy => exact finish (fun _ _ _ h => h) (fun _ _ _ h => h) (fun _ _ h => h.1) (C22_written c a d _ hc ha hd hk rfl hone hch)
  | lazy => exact finish (fun _ _ _ h => h) (fun _ _ _ h => h) (fun _ _ h => h.1) (C23_written c a d _ hc ha hd hk rfl hch)
  | possessive =>
    refine finish (fun _ _ _ h => h.1) (fun q s n h => ⟨h, ?_⟩) (fun _ _ h => h) (C24_written c a d _ hc ha hd hk rfl hch)
    obtain ⟨_, ⟨h2, h3⟩, h4, _⟩ := h
    refine ⟨⟨h3, h4⟩, fun m hm => ?_⟩
    have := hm.1 _ rfl
    simp only [Quant.lo] at h2
    omega

/-! ## the hypotheses are met -/

example : let c := Atom.chr 60; let a := Atom.esc 119; let k := Quant.plus .greedy; let d := Atom.esc 100
    c.ok = true ∧ c.steady = true ∧ a.ok = true ∧ simpleAtom a = true ∧ d.ok = true ∧ simpleAtom d = true ∧ k.sane = true ∧
      c.spell ++ a.spell ++ k.spell ++ d.spell = str "<\\w+\\d" ∧ (∀ x ∈ str "<\\w+\\d", x ∈ allChars) ∧ m "<\\w+\\d" "<<ab1c2d" = some [some "<ab1c2"] := by
  decide +kernel
example : let a := Atom.cls false [.rng 97 122] false; let k := Quant.between [49] [53] .lazy; let d := Atom.chr 98
    a.ok = true ∧ simpleAtom a = true ∧ d.ok = true ∧ simpleAtom d = true ∧ k.sane = true ∧
      (Atom.chr 60).spell ++ a.spell ++ k.spell ++ d.spell = str "<[a-z]{1,5}?b" ∧ m "<[a-z]{1,5}?b" "<b<abab" = some [some "<ab"] := by
  decide +kernel
example : m "<\\w++\\d" "<ab1" = none ∧ m "<\\d{2}+\\d" "<1<123" = some [some "<123"] ∧ boundB [50] = true ∧ 0 < decimal [50] := by decide +kernel

end ERegex.Props

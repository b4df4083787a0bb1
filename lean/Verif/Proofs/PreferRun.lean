import Verif.Proofs.PreferBuild
/-!
# The preferred match: running the tree of a regular sequence
-/
set_option autoImplicit false
namespace ERegex
open ERegex.Spec ERegex.Props

/-- The run reports the first of the list. -/
def Agrees (l : List Nat) (st : St) : Prop :=
  match l with
  | [] => st.accepted = false
  | e :: _ => st.accepted = true ∧ st.pos = (e : Int)

theorem agrees_yes {l : List Nat} {st : St} (h : Agrees l st) : st.accepted = true ↔ l ≠ [] := by
  cases l with
  | nil => simp only [Agrees] at h; simp [h]
  | cons e l => simp only [Agrees] at h; simp [h.1]

theorem agrees_end {l : List Nat} {st : St} (h : Agrees l st) {y : Nat} (hy : l.head? = some y) : st.accepted = true ∧ st.pos = (y : Int) := by
  cases l with
  | nil => simp at hy
  | cons e l => simp only [List.head?_cons, Option.some.injEq] at hy; subst hy; exact h

theorem agrees_head {l l' : List Nat} {st : St} (h : Agrees l st) (e : l.head? = l'.head?) : Agrees l' st := by
  cases l <;> cases l' <;> simp_all [Agrees]

theorem atomic_safe {a : Atom} {m : Node} (h : Atomic a m) (nul : Bool) : safe nul m = true := by
  have := h.one
  simp only [oneCh, Bool.or_eq_true] at this
  rcases this with h | h
  · exact (single_conds nul false false m h false false true .univ false).1
  · exact (skipping_conds nul false m h false).1

theorem fits_safe {f : Bool} {s : Sq} {cs : List Node} (hf : Fits f s cs) (nul : Bool) (hn : s.dollar = true → nul = true) :
    safes nul cs = true ∧ slotss cs = [] := by
  induction hf with
  | nil => simp [safes, slotss]
  | dollar => have := hn rfl; simp [safes, slotss, safe, slots, this]
  | dollar' => have := hn rfl; simp [safes, slotss, safe, slots, this]
  | once ha hf ih => have := ih hn; simp [safes, slotss, safe, slots, atomic_safe ha, this, ha.noslot]
  | last ha => simp [safes, slotss, atomic_safe ha, ha.noslot]
  | exact ha hf ih => have := ih hn; simp [safes, slotss, safe, slots, atomic_safe ha, this, ha.noslot]
  | possessive ha hf h1 h2 ih => have := ih hn; simp [safes, slotss, safe, slots, atomic_safe ha, this, ha.noslot]
  | greedy ha hf h1 h2 h3 ih => have := ih hn; simp [safes, slotss, safe, slots, atomic_safe ha, this, ha.noslot, ha.size]
  | lazy ha hf h1 h2 h3 ih => have := ih hn; simp [safes, slotss, safe, slots, atomic_safe ha, this, ha.noslot]

theorem fits_empty {f : Bool} {s : Sq} {cs : List Node} (hf : Fits f s cs) (hc : cs = []) : s = .nil false := by
  cases hf <;> first | rfl | simp at hc

theorem fits_one {f : Bool} {s : Sq} {cs : List Node} (hf : Fits f s cs) (hc : cs ≠ []) : ∃ c, cs = [c] := by
  cases hf <;> first | exact absurd rfl hc | exact ⟨_, rfl⟩

mutual
theorem single_flagFree : ∀ (t : Node), single t = true → flagFree t = true
  | .exact .., _ | .range .., _ | .word, _ | .any, _ => by simp [flagFree]
  | .simple m cs, h => by
    simp only [single, Bool.and_eq_true] at h
    simpa [flagFree] using single_flagFree m h.1
  | .alt cs, h => by
    simp only [single, Bool.and_eq_true] at h
    simp only [flagFree]
    exact singles_flagFree cs h.2 (by intro hc; subst hc; simp at h)
  | .space, h | .bos, h | .eol, h | .negated _, h | .greedy .., h | .lazy .., h | .possessive .., h | .repeated .., h | .group .., h => by
    simp [single] at h
theorem singles_flagFree : ∀ (cs : List Node), singles cs = true → cs ≠ [] → flagFreeHead cs = true
  | [], _, h => absurd rfl h
  | c :: cs, h, _ => by
    simp only [singles, Bool.and_eq_true] at h
    simpa [flagFreeHead] using single_flagFree c h.1
end

theorem single_clean {t : Node} (h : single t = true) : clean t = true := (single_conds false false false t h false false true .univ false).2.2.2

theorem fits_firm {f : Bool} {s : Sq} {cs : List Node} (hf : Fits f s cs) (h : s.firm = true) :
    cs ≠ [] ∧ cleans cs = true ∧ flagFreeHead cs = true := by
  cases hf with
  | nil => simp [Sq.firm] at h
  | dollar => simp [cleans, clean, flagFreeHead, flagFree]
  | dollar' => simp [cleans, clean, flagFreeHead, flagFree]
  | once ha hf =>
    have := ha.steady h
    simp [cleans, clean, flagFreeHead, flagFree, single_clean this, single_flagFree _ this]
  | last ha =>
    have := ha.steady h
    simp [cleans, flagFreeHead, single_clean this, single_flagFree _ this]
  | exact ha hf => simp [Sq.firm] at h
  | possessive ha hf h1 h2 => rename_i k _ _; cases k <;> simp [Sq.firm, Quant.fixed] at h h1
  | greedy ha hf h1 h2 => rename_i k _ _ _; cases k <;> simp [Sq.firm, Quant.fixed] at h h1
  | lazy ha hf h1 h2 => rename_i k _ _ _; cases k <;> simp [Sq.firm, Quant.fixed] at h h1

/-- What is known of the modes: the tree has been optimized, or the heuristics make no difference. -/
def Known (f : Bool) (s : Sq) : Prop := f = true ∨ s.robust = true

theorem Known.rest {f : Bool} {a : Atom} {k : Quant} {s : Sq} (h : Known f (.cons a k s)) : Known f s := by
  rcases h with h | h
  · exact Or.inl h
  · simp only [Sq.robust, Bool.and_eq_true] at h; exact Or.inr h.2

/-- A greedy repetition in the tree. -/
theorem known_greedy {f : Bool} {a : Atom} {k : Quant} {s : Sq} (hk : Known f (.cons a k s)) (h1 : k.fixed = false) (h2 : k.mode = .greedy)
    (h3 : f = true → keeps a k s = true) (hp : pieceOk a k s = true) :
    (s.firm = true ∨ s.nullable = true) ∧ a.steady = true ∧ ¬ (k.lo = 0 ∧ k.hiN = 1) := by
  have key : (s.firm = true ∨ s.nullable = true) ∧ a.steady = true ∧ (k.lo == 0 && k.hi == some 1) = false := by
    rcases hk with hk | hk
    · unfold pieceOk at hp
      rw [h2, h1, h3 hk] at hp
      simp only [Bool.false_or, if_true, Bool.and_eq_true, Bool.or_eq_true, Bool.not_eq_true'] at hp
      exact ⟨hp.1.1, hp.1.2, hp.2⟩
    · simp only [Sq.robust, h1, h2, Bool.false_or, Bool.and_eq_true, Bool.or_eq_true, Bool.not_eq_true'] at hk
      exact ⟨hk.1.2, hk.1.1.1, hk.1.1.2⟩
  refine ⟨key.1, key.2.1, ?_⟩
  rintro ⟨h, h'⟩
  unfold Quant.hiN at h'
  cases hh : k.hi with
  | none => rw [hh] at h'; simp [umax] at h'
  | some x => rw [hh] at h'; simp at h'; have := key.2.2; simp [h, hh, h'] at this

/-- A lazy repetition in the tree. -/
theorem known_lazy {f : Bool} {a : Atom} {k : Quant} {s : Sq} (hk : Known f (.cons a k s)) (h1 : k.fixed = false) (h2 : k.mode = .lazy)
    (h3 : f = true → keeps a k s = true) (hp : pieceOk a k s = true) : s.firm = true := by
  rcases hk with hk | hk
  · unfold pieceOk at hp
    rw [h2, h1, h3 hk] at hp
    simpa using hp
  · simp only [Sq.robust, h1, h2, Bool.false_or, Bool.and_eq_true] at hk
    exact hk.1

theorem firm_not_nullable : ∀ (s : Sq), s.firm = true → s.nullable = false
  | .nil d, h => by simp [Sq.firm] at h; simp [Sq.nullable, h]
  | .cons a .once s, h => by simp [Sq.nullable, Quant.lo]
  | .cons a (.star _) s, h | .cons a (.plus _) s, h | .cons a (.opt _) s, h | .cons a (.exact ..) s, h | .cons a (.atLeast ..) s, h
  | .cons a (.between ..) s, h => by simp [Sq.firm] at h

/-- The tree of a sequence that can match nothing always accepts and restores its position. -/
theorem fits_null {f : Bool} {s : Sq} {cs : List Node} (hf : Fits f s cs) (hr : s.regular = true) (hk : Known f s) (h : s.nullable = true) :
    totals false cs = true ∧ cleans cs = true ∧ nullables cs = true := by
  induction hf with
  | nil => simp [totals, cleans, nullables]
  | dollar => simp [Sq.nullable] at h
  | dollar' => simp [Sq.nullable] at h
  | once ha hf ih => simp [Sq.nullable, Quant.lo] at h
  | last ha => simp [Sq.nullable, Quant.lo] at h
  | @exact a m s cs d md ha hf ih =>
    simp only [Sq.regular, Bool.and_eq_true, Quant.sane, Quant.hi, Quant.lo] at hr
    simp only [Sq.nullable, Quant.lo, Bool.and_eq_true, beq_iff_eq] at h
    have := hr.1.1.2.2
    simp at this
    omega
  | @possessive a m k s cs ha hf h1 h2 ih =>
    simp only [Sq.regular, Bool.and_eq_true] at hr
    simp only [Sq.nullable, Bool.and_eq_true, beq_iff_eq] at h
    have := ih hr.2 hk.rest h.2
    simp [totals, total, cleans, clean, nullables, nullable, h.1, this]
  | @greedy a m k s cs ha hf h1 h2 h3 ih =>
    simp only [Sq.regular, Bool.and_eq_true] at hr
    simp only [Sq.nullable, Bool.and_eq_true, beq_iff_eq] at h
    have := ih hr.2 hk.rest h.2
    have hq := (known_greedy hk h1 h2 h3 hr.1.2).2.2
    have hi : k.hiN ≠ 1 := fun e => hq ⟨h.1, e⟩
    have ho : optPath m 0 k.hiN = false := by simp [optPath, hi]
    simp [totals, total, cleans, clean, nullables, nullable, h.1, this, hi, ho]
  | @lazy a m k s cs ha hf h1 h2 h3 ih =>
    simp only [Sq.regular, Bool.and_eq_true] at hr
    simp only [Sq.nullable, Bool.and_eq_true, beq_iff_eq] at h
    have := firm_not_nullable s (known_lazy hk h1 h2 h3 hr.1.2)
    rw [this] at h; simp at h

/-! ## the ends -/

theorem counts_fixed {k : Quant} {n : Nat} (h1 : k.lo = n) (h2 : k.hi = some n) (a : Nat) : k.counts a = if n ≤ a then [n] else [] := by
  unfold Quant.counts Quant.top
  rw [h1, h2]
  simp only
  by_cases h : n ≤ a
  · rw [Nat.min_eq_left h, if_pos h, show n + 1 - n = 1 by omega]
    cases k.mode <;> simp
  · rw [Nat.min_eq_right (by omega), if_neg h, show a + 1 - n = 0 by omega]
    cases k.mode <;> simp <;> omega

theorem nullable_picks (q : List Int) : ∀ (s : Sq), s.nullable = true → ∀ i, s.picks q i ≠ []
  | .nil false, _, i => by simp [Sq.picks]
  | .nil true, h, i => by simp [Sq.nullable] at h
  | .cons a k s, h, i => by
    simp only [Sq.nullable, Bool.and_eq_true, beq_iff_eq] at h
    have : ∃ n, n ∈ k.counts (runLen a.set (q.drop i)) := by
      by_cases hm : k.mode = .possessive
      · exact ⟨_, by unfold Quant.counts; rw [hm]; simp only [h.1, Nat.zero_le, if_true]; exact List.mem_singleton.2 rfl⟩
      · exact ⟨0, (mem_greedy k _ 0 hm).2 ⟨⟨by omega, fun h _ => Nat.zero_le _⟩, Nat.zero_le _⟩⟩
    obtain ⟨n, hn⟩ := this
    intro hc
    simp only [Sq.picks, List.flatMap_eq_nil_iff] at hc
    exact nullable_picks q s h.2 _ (hc n hn)

theorem first_picks (q : List Int) : ∀ (s : Sq) (i : Nat), s.picks q i ≠ [] →
    s.nullable = true ∨ i = q.length ∨ ∃ c, q[i]? = some c ∧ s.first c = true
  | .nil false, i, h => Or.inl rfl
  | .nil true, i, h => by
    simp only [Sq.picks] at h
    split at h
    · rename_i e; exact Or.inr (Or.inl e)
    · split at h
      · rename_i e; exact Or.inr (Or.inr ⟨10, e, by simp [Sq.first]⟩)
      · exact absurd rfl h
  | .cons a k s, i, h => by
    have : ∃ n, n ∈ k.counts (runLen a.set (q.drop i)) ∧ s.picks q (i + n) ≠ [] := by
      simp only [Sq.picks, ne_eq, List.flatMap_eq_nil_iff] at h
      simpa using h
    obtain ⟨n, hn, hp⟩ := this
    obtain ⟨h1, h2⟩ := counts_sub k _ n hn
    cases n with
    | zero =>
      have h0 : k.lo = 0 := by have := h1.1; omega
      rcases first_picks q s _ hp with h | h | ⟨c, hc, hf⟩
      · left; simp [Sq.nullable, h0, h]
      · right; left; simpa using h
      · right; right; exact ⟨c, by simpa using hc, by simp [Sq.first, h0, hf]⟩
    | succ n =>
      obtain ⟨c, hc, hs⟩ := (inClass_runLen q a.set i (n + 1)).2 h2 0 (by omega)
      exact Or.inr (Or.inr ⟨c, by simpa using hc, by simp [Sq.first, hs]⟩)

/-- The largest number of repetitions works whenever any does, for pieces made possessive. -/
theorem top_works {q : List Int} (hq : ∀ c ∈ q, c ∈ allChars) {a : Atom} {s : Sq} (hm : s.nullable = true ∨ meets a.set s.first = false) {i n t : Nat}
    (hi : i ≤ q.length) (hn : n ≤ t) (ht : t ≤ runLen a.set (q.drop i)) (hp : s.picks q (i + n) ≠ []) : s.nullable = true ∨ n = t := by
  rcases hm with hm | hm
  · exact Or.inl hm
  by_cases e : n = t
  · exact Or.inr e
  rcases first_picks q s _ hp with h | h | ⟨c, hc, hf⟩
  · exact Or.inl h
  · have := runLen_le q a.set i hi; omega
  · exfalso
    obtain ⟨d, hd, hs⟩ := (inClass_runLen q a.set i t).2 ht n (by omega)
    rw [hc] at hd; cases hd
    have : meets a.set s.first = true := (meets_iff _ _).2 ⟨c, hq c (List.mem_of_getElem? hc), hs, hf⟩
    rw [hm] at this; cases this

/-! ## running -/

section
variable {cx : Ctx} {P : Par}

/-- What a sequence does, at every offset. -/
def Does (cx : Ctx) (P : Par) (s : Sq) (cs : List Node) : Prop := ∀ (st : St) (i : Nat), Good cx P st → st.pos = i →
  (st.accepted = true ∨ cs ≠ []) → ∃ st', run cx (.alt cs) [] st = some st' ∧ Agrees (s.picks cx.query i) st'

theorem does_rest {s : Sq} {cs : List Node} (h : Does cx P s cs) {st : St} (hg : Good cx P st) {x : Nat} (h1 : P.s ≤ x) (h2 : x ≤ cx.query.length) :
    (∀ y, RestEnds cx cs st x y → s.picks cx.query x ≠ [] ∧ ∃ e : Nat, y = e ∧ (s.picks cx.query x).head? = some e) ∧
    (RestFails cx cs st x → s.picks cx.query x = []) ∧ (s.picks cx.query x ≠ [] → ∃ y, RestEnds cx cs st x y) := by
  obtain ⟨r, e, ha⟩ := h { st with pos := x, accepted := true } x (hg.both true h1 (by unfold Ctx.qend; omega)) rfl (Or.inl rfl)
  refine ⟨?_, ?_, ?_⟩
  · rintro y ⟨r', e', h3, h4⟩
    rw [e] at e'; cases e'
    have := (agrees_yes ha).1 h3
    refine ⟨this, ?_⟩
    cases hp : s.picks cx.query x with
    | nil => exact absurd hp this
    | cons n l => rw [hp] at ha; exact ⟨n, by rw [← h4]; exact ha.2, by simp⟩
  · rintro ⟨r', e', h3⟩
    rw [e] at e'; cases e'
    cases hp : s.picks cx.query x with
    | nil => rfl
    | cons n l => rw [hp] at ha; rw [ha.1] at h3; cases h3
  · intro hp
    exact ⟨r.pos, r, e, (agrees_yes ha).2 hp, rfl⟩

theorem agrees_of {l : List Nat} {st : St} (h1 : st.accepted = true → ∃ e : Nat, st.pos = e ∧ l.head? = some e) (h2 : st.accepted = false → l = []) :
    Agrees l st := by
  cases ha : st.accepted with
  | false => rw [h2 ha]; exact ha
  | true =>
    obtain ⟨e, h3, h4⟩ := h1 ha
    cases l with
    | nil => simp at h4
    | cons x l => simp at h4; subst h4; exact ⟨ha, h3⟩

/-- Verdict of the rest, as it is used by the theorems about repetitions. -/
theorem does_agrees {s : Sq} {cs : List Node} (h : Does cx P s cs) {st st' : St} (hg : Good cx P st) {x : Nat} (h1 : P.s ≤ x) (h2 : x ≤ cx.query.length)
    (h3 : st'.accepted = true → RestEnds cx cs st x st'.pos) (h4 : st'.accepted = false → RestFails cx cs st x) :
    Agrees (s.picks cx.query x) st' := by
  obtain ⟨a, b, c⟩ := does_rest h hg h1 h2
  exact agrees_of (fun ha => (a _ (h3 ha)).2) (fun ha => b (h4 ha))

theorem does_dollar (hn : cx.post.head? = some 0) {c : Node} (hc : ∀ st, run cx c [] st = eolMatch cx st) : Does cx P (.nil true) [c] := by
  intro st i hg hi _
  rw [run_alt_one, hc]
  unfold eolMatch
  have hp := hg.pos.2
  have h0 : ¬ st.pos > cx.qend := by omega
  rw [if_neg h0]
  have hq : cx.qend = (cx.query.length : Int) := rfl
  by_cases he : i = cx.query.length
  · have : st.pos = cx.qend := by rw [hi, hq, he]
    have hr : cx.read st.pos = some 0 := by rw [this, read_end, hn]
    rw [hr]
    refine ⟨_, rfl, ?_⟩
    simp [Sq.picks, he, Agrees, this, hq]
  · have hlt : st.pos < cx.qend := by omega
    have hr := read_query cx st.pos (by omega) hlt
    rw [hi] at hr
    simp only [Int.toNat_natCast] at hr
    cases hc : cx.query[i]? with
    | none => rw [List.getElem?_eq_none_iff] at hc; rw [hi, hq] at hlt; omega
    | some d =>
      rw [hc] at hr; rw [← hi] at hr
      rw [hr]
      by_cases hd : d = 10
      · refine ⟨{ st with accepted := true, pos := st.pos + 1 }, by simp only [hd, if_true], ?_⟩
        simp [Sq.picks, he, hc, hd, Agrees, hi]
      · have : ¬ st.pos = cx.qend := by omega
        refine ⟨{ st with accepted := false }, by simp only [hd, if_false, this, decide_false], ?_⟩
        simp [Sq.picks, he, hc, hd, Agrees, this]

theorem does_once {a : Atom} {m : Node} (ha : Atomic a m) {s : Sq} {cs : List Node} (h : Does cx P s cs) :
    Does cx P (.cons a .once s) [.simple m cs] := by
  intro st i hg hi _
  have hs := stepSpec_run cx m ha.one []
  rw [ha.test] at hs
  have hp : Sq.picks cx.query (.cons a .once s) i = if 1 ≤ runLen a.set (cx.query.drop i) then s.picks cx.query (i + 1) else [] := by
    simp only [Sq.picks]
    rw [counts_fixed (n := 1) rfl rfl]
    split <;> simp
  rw [run_alt_one, hp]
  simp only [run, simpleMatch]
  have hb := hg.pos
  by_cases hc : InClass cx.query a.set i 1
  · rw [if_pos ((inClass_runLen ..).1 hc), hs.yes st i hi hc]
    simp only [if_true]
    have hle := inClass_len hc (by have := hb.2; rw [hi] at this; unfold Ctx.qend at this; omega)
    obtain ⟨r, e, hr⟩ := h { st with pos := (i + 1 : Nat), accepted := true } (i + 1)
      (hg.both true (by rw [hi] at hb; omega) (by unfold Ctx.qend; omega)) rfl (Or.inl rfl)
    have e' : dfs (runs cx cs) [] { st with pos := ((i + 1 : Nat) : Int), accepted := true } = some r := by simpa only [run] using e
    rw [e']
    simp only
    split
    · exact ⟨_, rfl, hr⟩
    · rename_i hna
      refine ⟨_, rfl, ?_⟩
      cases hp : s.picks cx.query (i + 1) with
      | nil => simpa [Agrees] using hna
      | cons x l => rw [hp] at hr; exact absurd hr.1 hna
  · rw [if_neg (fun h => hc ((inClass_runLen ..).2 h))]
    obtain ⟨r, e, h1, _⟩ := hs.no st i hi hc
    rw [e]
    simp only [h1, Bool.false_eq_true, if_false]
    exact ⟨r, rfl, h1⟩

theorem does_last {a : Atom} {m : Node} (ha : Atomic a m) : Does cx P (.cons a .once (.nil false)) [m] := by
  intro st i hg hi _
  have hs := stepSpec_run cx m ha.one []
  rw [ha.test] at hs
  have hp : Sq.picks cx.query (.cons a .once (.nil false)) i = if 1 ≤ runLen a.set (cx.query.drop i) then [i + 1] else [] := by
    simp only [Sq.picks]
    rw [counts_fixed (n := 1) rfl rfl]
    split <;> simp
  rw [run_alt_one, hp]
  by_cases hc : InClass cx.query a.set i 1
  · rw [if_pos ((inClass_runLen ..).1 hc), hs.yes st i hi hc]
    exact ⟨_, rfl, rfl, rfl⟩
  · rw [if_neg (fun h => hc ((inClass_runLen ..).2 h))]
    obtain ⟨r, e, h1, _⟩ := hs.no st i hi hc
    exact ⟨r, e, h1⟩

theorem boundB_lt {d : List Int} (h : boundB d = true) : (decimal d).toNat < umax := by
  have := (boundB_iff h).2.2
  unfold umax; omega

theorem sane_bounds {k : Quant} (h : k.sane = true) : k.lo ≤ k.hiN ∧ 0 < k.hiN := by
  unfold Quant.sane at h
  simp only [Bool.and_eq_true] at h
  obtain ⟨h1, h2⟩ := h
  cases k with
  | once => simp [Quant.lo, Quant.hiN, Quant.hi]
  | star m => simp [Quant.lo, Quant.hiN, Quant.hi, umax]
  | plus m => simp [Quant.lo, Quant.hiN, Quant.hi, umax]
  | opt m => simp [Quant.lo, Quant.hiN, Quant.hi]
  | exact n m => simp [Quant.lo, Quant.hiN, Quant.hi] at h2 ⊢; omega
  | atLeast n m =>
    have := boundB_lt h1
    simp only [Quant.lo, Quant.hiN, Quant.hi, Option.getD_none]
    exact ⟨by omega, by simp [umax]⟩
  | between n l m => simp [Quant.lo, Quant.hiN, Quant.hi] at h2 ⊢; omega

theorem hiN_iff {k : Quant} {n : Nat} (hn : n ≤ umax) : n ≤ k.hiN ↔ ∀ h, k.hi = some h → n ≤ h := by
  unfold Quant.hiN
  cases k.hi with
  | none => simp [hn]
  | some h => simp

theorem fits_does {f : Bool} {s : Sq} {cs : List Node} (hf : Fits f s cs) (hk : Known f s) (hr : s.regular = true) (hlen : cx.query.length < umax)
    (hq : ∀ c ∈ cx.query, c ∈ allChars) (hn : s.dollar = true → cx.post.head? = some 0) (hC : ∀ i a b, P.C i a b) : Does cx P s cs := by
  -- the run does not fail
  have total : ∀ {s cs}, Fits f s cs → (s.dollar = true → cx.post.head? = some 0) → ∀ st, Good cx P st → ∃ st', run cx (.alt cs) [] st = some st' := by
    intro s cs hf hn st hg
    obtain ⟨h1, h2⟩ := fits_safe hf s.dollar id
    obtain ⟨st', e, _⟩ := run_good hn hC (.alt cs) (by simpa [safe] using h1) (by simp [slots, h2]) [] (by simp) st hg
    exact ⟨st', e⟩
  induction hf with
  | nil =>
    intro st i hg hi ha
    simp only [ne_eq, not_true_eq_false, or_false] at ha
    exact ⟨st, by simp [run, runs, dfs], ha, hi⟩
  | dollar =>
    refine does_dollar (hn rfl) (fun st => ?_)
    simp only [run, simpleMatch, runs, dfs]
    cases eolMatch cx st with
    | none => rfl
    | some r => cases hr : r.accepted <;> simp [hr]
  | dollar' => exact does_dollar (hn rfl) (fun st => by simp only [run])
  | once ha hf ih =>
    simp only [Sq.regular, Bool.and_eq_true] at hr
    exact does_once ha (ih hk.rest hr.2 hn)
  | last ha => exact does_last ha
  | @exact a m s cs d md ha hf ih =>
    have hf' := Fits.exact (md := md) ha hf (d := d)
    simp only [Sq.regular, Bool.and_eq_true, Quant.sane, Quant.hi] at hr
    have hd := ih hk.rest hr.2 hn
    intro st i hg hi hacc
    obtain ⟨st', e⟩ := total hf' hn st hg
    refine ⟨st', e, ?_⟩
    rw [run_alt_one] at e
    have hpos : 0 < (decimal d).toNat := by have := hr.1.1.2.2; simp at this; omega
    obtain ⟨h1, h2⟩ := C25_exact cx m a.set _ cs [] st st' i ha.cls ha.one (Or.inr hpos) hi e
    simp only [Sq.picks]
    rw [counts_fixed (n := (decimal d).toNat) rfl rfl]
    have hb := hg.pos
    rw [hi] at hb
    have hil : i ≤ cx.query.length := by have := hb.2; unfold Ctx.qend at this; omega
    by_cases hc : InClass cx.query a.set i (decimal d).toNat
    · rw [if_pos ((inClass_runLen ..).1 hc)]
      simp only [List.flatMap_cons, List.flatMap_nil, List.append_nil]
      exact does_agrees hd hg (by omega) (inClass_len hc hil) (h1 hc).1 (h1 hc).2
    · rw [if_neg (fun h => hc ((inClass_runLen ..).2 h))]
      exact h2 hc
  | @possessive a m k s cs ha hf h1 h2 ih =>
    have hf' := Fits.possessive ha hf h1 h2
    simp only [Sq.regular, Bool.and_eq_true, Quant.sane] at hr
    have hd := ih hk.rest hr.2 hn
    intro st i hg hi hacc
    obtain ⟨st', e⟩ := total hf' hn st hg
    refine ⟨st', e, ?_⟩
    rw [run_alt_one] at e
    have hb := hg.pos
    rw [hi] at hb
    have hil : i ≤ cx.query.length := by have := hb.2; unfold Ctx.qend at this; omega
    have hsane := sane_bounds (k := k) (by simpa [Quant.sane] using hr.1.1.2)
    have hav := runLen_le cx.query a.set i hil
    obtain ⟨h3, h4⟩ := C24_possessive cx m a.set k.lo k.hiN cs [] st st' i ha.cls ha.one hsane.1 (Or.inr hsane.2) hi e
    simp only [Sq.picks]
    by_cases hc : InClass cx.query a.set i k.lo
    · obtain ⟨n, ⟨⟨n1, n2⟩, n3⟩, n4, n5, n6⟩ := h3 hc
      rw [inClass_runLen] at n2 hc
      have htop : k.top (runLen a.set (cx.query.drop i)) = n := by
        apply Nat.le_antisymm
        · have ht := (le_top k (k.top (runLen a.set (cx.query.drop i))) _).1 (Nat.le_refl _)
          exact n3 _ ⟨(hiN_iff (by omega)).2 ht.1, (inClass_runLen ..).2 ht.2⟩
        · exact (le_top ..).2 ⟨(hiN_iff (by omega)).1 n1, n2⟩
      have hpk := hr.1.2
      have hno : k.mode ≠ .possessive → s.nullable = true ∨ meets a.set s.first = false := by
        intro hm
        unfold pieceOk at hpk
        rw [h1, h2] at hpk
        cases hmo : k.mode with
        | possessive => exact absurd hmo hm
        | greedy => rw [hmo] at hpk; simpa using hpk
        | lazy => rw [hmo] at hpk; simp at hpk; exact Or.inr hpk.2
      have hag := does_agrees hd hg (st' := st') (x := i + n) (by omega) (by omega) n5 n6
      refine agrees_head hag ?_
      rw [← htop]
      symm
      refine head_top (by omega) ?_ ?_
      · intro hm x hx1 hx2 hx3
        rcases top_works hq (hno (by rw [hm]; simp)) hil ((le_top ..).2 ⟨hx1.2, hx2⟩) (by omega) hx3 with h | h
        · exact nullable_picks _ s h _
        · rwa [← h]
      · intro hm x hx1 hx2 hx3
        rcases top_works hq (hno (by rw [hm]; simp)) hil ((le_top ..).2 ⟨hx1.2, hx2⟩) (by omega) hx3 with h | h
        · unfold pieceOk at hpk
          rw [h1, h2, hm] at hpk
          simp [h] at hpk
        · exact h
    · rw [counts_nil (fun x hx1 hx2 => absurd (inClass_mono ((inClass_runLen ..).2 hx2) hx1.1) hc)]
      exact h4 hc
  | @greedy a m k s cs ha hf h1 h2 h3 ih =>
    have hf' := Fits.greedy ha hf h1 h2 h3
    simp only [Sq.regular, Bool.and_eq_true, Quant.sane] at hr
    have hd := ih hk.rest hr.2 hn
    intro st i hg hi hacc
    obtain ⟨st', e⟩ := total hf' hn st hg
    refine ⟨st', e, ?_⟩
    rw [run_alt_one] at e
    have hb := hg.pos
    rw [hi] at hb
    have hil : i ≤ cx.query.length := by have := hb.2; unfold Ctx.qend at this; omega
    have hsane := sane_bounds (k := k) (by simpa [Quant.sane] using hr.1.1.2)
    have hav := runLen_le cx.query a.set i hil
    have hpk := hr.1.2
    obtain ⟨hfn, hst, hq01⟩ := known_greedy hk h1 h2 h3 hpk
    have hcl : cleans cs = true := by
      rcases hfn with h | h
      · exact (fits_firm hf h).2.1
      · exact (fits_null hf hr.2 hk.rest h).2.1
    by_cases hne : cs = []
    · subst hne
      have hsn := fits_empty hf rfl
      subst hsn
      obtain ⟨h4, h5⟩ := C22_greedy_alone_partial cx m a.set k.lo k.hiN st st' i ha.cls (ha.steady hst) hsane.1 hq01 hi e
      simp only [Sq.picks]
      by_cases hc : InClass cx.query a.set i k.lo
      · obtain ⟨hacc', n, ⟨⟨n1, n2⟩, n3⟩, n4⟩ := h4 hc
        rw [inClass_runLen] at n2 hc
        refine agrees_of (fun _ => ⟨i + n, n4, ?_⟩) (fun h => by rw [hacc'] at h; cases h)
        have hlo : k.lo ≤ n := n3 _ ⟨hsane.1, (inClass_runLen ..).2 hc⟩
        rw [head_greedy (f := fun n => [i + n]) h2 ⟨hlo, (hiN_iff (by omega)).1 n1⟩ n2 (by simp) (fun x hx1 hx2 hx3 =>
          n3 x ⟨(hiN_iff (by omega)).2 hx1.2, (inClass_runLen ..).2 hx2⟩)]
        rfl
      · rw [counts_nil (fun x hx1 hx2 => absurd (inClass_mono ((inClass_runLen ..).2 hx2) hx1.1) hc)]
        exact h5 hc
    obtain ⟨h4, h5⟩ := C22_greedy_takes_most_partial cx m a.set k.lo k.hiN cs [] st st' i ha.cls (ha.steady hst) hsane.1 hq01 hne hcl hi e
    have hrest := fun x (hx : x ≤ runLen a.set (cx.query.drop i)) => does_rest hd hg (x := i + x) (by omega) (by omega)
    simp only [Sq.picks]
    refine agrees_of (fun hacc' => ?_) (fun hacc' => ?_)
    · obtain ⟨n, ⟨⟨n1, n2, n3, y, n4⟩, n5⟩, n6⟩ := h4 hacc'
      rw [inClass_runLen] at n3
      obtain ⟨hp, e', he1, he2⟩ := (hrest n n3).1 _ n6
      refine ⟨e', he1, ?_⟩
      rw [← he2]
      refine head_greedy h2 ⟨n1, (hiN_iff (by omega)).1 n2⟩ n3 hp (fun x hx1 hx2 hx3 => ?_)
      exact n5 x ⟨hx1.1, (hiN_iff (by omega)).2 hx1.2, (inClass_runLen ..).2 hx2, (hrest x hx2).2.2 hx3⟩
    · refine counts_nil (fun x hx1 hx2 => ?_)
      exact (hrest x hx2).2.1 (h5 hacc' x hx1.1 ((hiN_iff (by omega)).2 hx1.2) ((inClass_runLen ..).2 hx2))
  | @lazy a m k s cs ha hf h1 h2 h3 ih =>
    have hf' := Fits.lazy ha hf h1 h2 h3
    simp only [Sq.regular, Bool.and_eq_true, Quant.sane] at hr
    have hd := ih hk.rest hr.2 hn
    intro st i hg hi hacc
    obtain ⟨st', e⟩ := total hf' hn st hg
    refine ⟨st', e, ?_⟩
    rw [run_alt_one] at e
    have hb := hg.pos
    rw [hi] at hb
    have hil : i ≤ cx.query.length := by have := hb.2; unfold Ctx.qend at this; omega
    have hsane := sane_bounds (k := k) (by simpa [Quant.sane] using hr.1.1.2)
    have hav := runLen_le cx.query a.set i hil
    have hpk := hr.1.2
    obtain ⟨hne, hcl, hff⟩ := fits_firm hf (known_lazy hk h1 h2 h3 hpk)
    obtain ⟨h4, h5⟩ := C23_lazy_takes_least_partial cx m a.set k.lo k.hiN cs [] st st' i ha.cls ha.one hsane.1 hne hcl (Or.inr (Or.inr hff)) hi hil e
    have hrest := fun x (hx : x ≤ runLen a.set (cx.query.drop i)) => does_rest hd hg (x := i + x) (by omega) (by omega)
    simp only [Sq.picks]
    refine agrees_of (fun hacc' => ?_) (fun hacc' => ?_)
    · obtain ⟨n, ⟨⟨n1, n2, n3, y, n4⟩, n5⟩, n6⟩ := h4 hacc'
      rw [inClass_runLen] at n3
      obtain ⟨hp, e', he1, he2⟩ := (hrest n n3).1 _ n6
      refine ⟨e', he1, ?_⟩
      rw [← he2]
      refine head_lazy h2 ⟨n1, (hiN_iff (by omega)).1 n2⟩ n3 hp (fun x hx1 hx2 hx3 => ?_)
      exact n5 x ⟨hx1.1, (hiN_iff (by omega)).2 hx1.2, (inClass_runLen ..).2 hx2, (hrest x hx2).2.2 hx3⟩
    · refine counts_nil (fun x hx1 hx2 => ?_)
      exact (hrest x hx2).2.1 (h5 hacc' x hx1.1 ((hiN_iff (by omega)).2 hx1.2) ((inClass_runLen ..).2 hx2))

end
end ERegex

import Verif.Proofs.Sound
import Verif.Proofs.Size
/-!
# Characters at which a tree can begin, and trees of fixed width

`first t f` over-approximates what stands at an offset where `t` matches and after which `f` holds.
-/
set_option autoImplicit false
namespace ERegex
open Spec

/-- A finite or cofinite set of characters. -/
structure CSet where
  neg : Bool
  xs : List Int

namespace CSet
/-- Membership. -/
def mem (s : CSet) (c : Int) : Bool := (s.xs.contains c) != s.neg
/-- The complement. -/
def compl (s : CSet) : CSet := ⟨!s.neg, s.xs⟩
/-- The union. -/
def union (a b : CSet) : CSet :=
  match a.neg, b.neg with
  | false, false => ⟨false, a.xs ++ b.xs⟩
  | true, false => ⟨true, a.xs.filter (fun x => !b.xs.contains x)⟩
  | false, true => ⟨true, b.xs.filter (fun x => !a.xs.contains x)⟩
  | true, true => ⟨true, a.xs.filter (fun x => b.xs.contains x)⟩
/-- No common character (decided when one of the sets is finite). -/
def disj (a b : CSet) : Bool :=
  match a.neg, b.neg with
  | false, _ => a.xs.all (fun x => !b.mem x)
  | _, false => b.xs.all (fun x => !a.mem x)
  | true, true => false

theorem mem_compl (s : CSet) (c : Int) : s.compl.mem c = !s.mem c := by
  simp only [mem, compl]
  cases s.xs.contains c <;> cases s.neg <;> rfl

theorem mem_union (a b : CSet) (c : Int) : (a.union b).mem c = (a.mem c || b.mem c) := by
  obtain ⟨na, xa⟩ := a
  obtain ⟨nb, xb⟩ := b
  cases na <;> cases nb <;> simp only [union, mem, List.contains_eq_mem, List.mem_append, List.mem_filter] <;>
    by_cases h1 : c ∈ xa <;> by_cases h2 : c ∈ xb <;> simp [h1, h2]

theorem disj_spec {a b : CSet} (h : disj a b = true) {c : Int} (ha : a.mem c = true) (hb : b.mem c = true) : False := by
  obtain ⟨na, xa⟩ := a
  obtain ⟨nb, xb⟩ := b
  cases na <;> cases nb <;> simp only [disj, List.all_eq_true, Bool.not_eq_true'] at h
  · have : c ∈ xa := by simpa [mem] using ha
    rw [h c this] at hb; simp at hb
  · have : c ∈ xa := by simpa [mem] using ha
    rw [h c this] at hb; simp at hb
  · have : c ∈ xb := by simpa [mem] using hb
    rw [h c this] at ha; simp at ha
  · simp at h
end CSet

/-- The integers from `a` to `b`. -/
def intRange (a b : Int) : List Int := (List.range (b - a + 1).toNat).map (fun (k : Nat) => a + (k : Int))

theorem mem_intRange (a b c : Int) : c ∈ intRange a b ↔ a ≤ c ∧ c ≤ b := by
  simp only [intRange, List.mem_map, List.mem_range]
  constructor
  · rintro ⟨k, hk, rfl⟩; omega
  · intro h; exact ⟨(c - a).toNat, by omega, by omega⟩

mutual
/-- The class of a one-character tree. -/
def setOf : Node → CSet
  | .exact s _ => match s with
    | [x] => ⟨false, [x]⟩
    | _ => ⟨false, []⟩
  | .range a b _ => ⟨false, intRange a b⟩
  | .word => ⟨false, intRange 65 90 ++ intRange 97 122 ++ intRange 48 57 ++ [95]⟩
  | .any => ⟨true, [10]⟩
  | .space => ⟨false, [9, 10, 12, 13, 32]⟩
  | .negated m => (setOf m).compl
  | .simple m _ => setOf m
  | .alt cs => setsOf cs
  | _ => ⟨false, []⟩
/-- Union over a list. -/
def setsOf : List Node → CSet
  | [] => ⟨false, []⟩
  | c :: cs => (setOf c).union (setsOf cs)
end

mutual
theorem mem_setOf : ∀ (t : Node) (c : Int), (setOf t).mem c = testOf t c
  | .exact s _, c => by
    simp only [setOf, testOf]
    rcases s with _ | ⟨x, _ | ⟨y, s⟩⟩
    · simp [CSet.mem]
    · by_cases h : x = c
      · subst h; simp [CSet.mem]
      · have h' : ¬ c = x := fun e => h e.symm
        simp [CSet.mem, h, h']
    · simp [CSet.mem]
  | .range a b _, c => by
    simp only [setOf, testOf, CSet.mem, List.contains_eq_mem, mem_intRange, rangeTest]
    by_cases h1 : a ≤ c <;> by_cases h2 : c ≤ b <;> simp [h1, h2]
  | .word, c => by
    simp only [setOf, testOf, CSet.mem, List.contains_eq_mem, List.mem_append, mem_intRange, wordTest, List.mem_singleton]
    by_cases h1 : 65 ≤ c <;> by_cases h2 : c ≤ 90 <;> by_cases h3 : 97 ≤ c <;> by_cases h4 : c ≤ 122 <;>
      by_cases h5 : 48 ≤ c <;> by_cases h6 : c ≤ 57 <;> by_cases h7 : c = 95 <;> simp [h1, h2, h3, h4, h5, h6, h7]
  | .any, c => by
    simp only [setOf, testOf, CSet.mem, anyTest]
    by_cases h : c = 10 <;> simp [h]
  | .space, c => by
    simp only [setOf, testOf, CSet.mem, spaceTest]
    simp only [List.contains_eq_mem, List.any_cons, List.any_nil, List.mem_cons, List.not_mem_nil, or_false]
    by_cases h1 : c = 9
    · subst h1; rfl
    by_cases h2 : c = 10
    · subst h2; rfl
    by_cases h3 : c = 12
    · subst h3; rfl
    by_cases h4 : c = 13
    · subst h4; rfl
    by_cases h5 : c = 32
    · subst h5; rfl
    simp [h1, h2, h3, h4, h5]; omega
  | .negated m, c => by simp only [setOf, testOf, CSet.mem_compl, mem_setOf m c]
  | .simple m _, c => by simp only [setOf, testOf, mem_setOf m c]
  | .alt cs, c => by simp only [setOf, testOf]; exact mem_setsOf cs c
  | .bos, c | .eol, c | .greedy .., c | .lazy .., c | .possessive .., c | .repeated .., c | .group .., c => by
    simp [setOf, testOf, CSet.mem]
theorem mem_setsOf : ∀ (cs : List Node) (c : Int), (setsOf cs).mem c = testsOf cs c
  | [], c => by simp [setsOf, testsOf, CSet.mem]
  | n :: cs, c => by simp only [setsOf, testsOf, CSet.mem_union, mem_setOf n c, mem_setsOf cs c]
end

/-- What may stand at an offset: a character of `set`, or (if `fin`) the end of the query. -/
structure Fol where
  set : CSet
  fin : Bool

namespace Fol
/-- The condition at an offset. -/
def holds (f : Fol) (q : List Int) (j : Nat) : Bool :=
  match q[j]? with
  | none => f.fin
  | some c => f.set.mem c
/-- Anything. -/
def univ : Fol := ⟨⟨true, []⟩, true⟩
/-- Nothing. -/
def none : Fol := ⟨⟨false, []⟩, false⟩
/-- A character of the class. -/
def cls (s : CSet) : Fol := ⟨s, false⟩
/-- The union. -/
def union (a b : Fol) : Fol := ⟨a.set.union b.set, a.fin || b.fin⟩
/-- No common offset. -/
def disj (a b : Fol) : Bool := !(a.fin && b.fin) && a.set.disj b.set

theorem holds_univ (q : List Int) (j : Nat) : univ.holds q j = true := by
  simp only [holds]; split <;> simp [univ, CSet.mem]

theorem holds_union (a b : Fol) (q : List Int) (j : Nat) : (a.union b).holds q j = (a.holds q j || b.holds q j) := by
  simp only [holds, union]
  split
  · rfl
  · exact CSet.mem_union _ _ _

theorem holds_cls {s : CSet} {q : List Int} {j : Nat} {c : Int} (h : q[j]? = some c) (hc : s.mem c = true) : (cls s).holds q j = true := by
  simp [holds, cls, h, hc]

theorem disj_spec {a b : Fol} (h : a.disj b = true) {q : List Int} {j : Nat} (ha : a.holds q j = true) (hb : b.holds q j = true) : False := by
  simp only [disj, Bool.and_eq_true, Bool.not_eq_true'] at h
  simp only [holds] at ha hb
  split at ha
  · rename_i e; rw [e] at hb; simp only at hb; rw [ha, hb] at h; simp at h
  · rename_i c e; rw [e] at hb; simp only at hb; exact CSet.disj_spec h.2 ha hb
end Fol

mutual
/-- What may stand at an offset where `t` matches, if `f` holds where it ends. -/
def first : Node → Fol → Fol
  | .exact s _, f => match s with
    | [] => f
    | c :: _ => .cls ⟨false, [c]⟩
  | .range a b d, _ => .cls (setOf (.range a b d))
  | .word, _ => .cls (setOf .word)
  | .any, _ => .cls (setOf .any)
  | .space, _ => .cls (setOf .space)
  | .negated m, _ => if oneCh (.negated m) then .cls (setOf (.negated m)) else .univ
  | .bos, f => f
  | .eol, _ => ⟨⟨false, [10]⟩, true⟩
  | .simple m cs, f | .group m _ cs, f => first m (firsts cs f)
  | .alt cs, f => firsts cs f
  | .greedy m lo _ cs, f | .lazy m lo _ cs, f | .possessive m lo _ cs, f =>
    if lo = 0 then (first m .univ).union (firsts cs f) else first m .univ
  | .repeated m n cs, f => if n = 0 then firsts cs f else first m .univ
/-- The same for a continuation. -/
def firsts : List Node → Fol → Fol
  | [], f => f
  | [c], f => first c f
  | c :: d :: cs, f => (first c f).union (firsts (d :: cs) f)
end

theorem firsts_holds {q : List Int} {f : Fol} {i : Nat} : ∀ {cs : List Node} {c : Node}, c ∈ cs → (first c f).holds q i = true →
    (firsts cs f).holds q i = true
  | [], _, h, _ => by simp at h
  | [d], c, h, hh => by
    have : c = d := by simpa using h
    subst this; simpa [firsts] using hh
  | d :: e :: cs, c, h, hh => by
    simp only [firsts, Fol.holds_union, Bool.or_eq_true]
    rcases List.mem_cons.1 h with rfl | h
    · exact Or.inl hh
    · exact Or.inr (firsts_holds h hh)

theorem first_oneCh {m : Node} (h : oneCh m = true) {q : List Int} {i j : Nat} (hd : Den q (toRx m) i j) : (Fol.cls (setOf m)).holds q i = true := by
  obtain ⟨_, c, hc, hp⟩ := (classOf_oneCh h q i j).1 hd
  exact Fol.holds_cls hc (by rw [mem_setOf]; exact hp)

mutual
theorem first_holds {q : List Int} : ∀ (t : Node) (f : Fol) (i j : Nat), Den q (toRx t) i j → f.holds q j = true →
    (first t f).holds q i = true
  | .exact s _, f, i, j, h, hf => by
    simp only [toRx, Den] at h
    obtain ⟨rfl, h2⟩ := h
    cases s with
    | nil => simpa [first] using hf
    | cons c s =>
      have := h2 0 (by simp)
      simp only [Nat.add_zero, List.getElem?_cons_zero] at this
      simp only [first]
      exact Fol.holds_cls this (by simp [CSet.mem])
  | .range a b d, f, i, j, h, hf => by simp only [first]; exact first_oneCh (m := .range a b d) rfl h
  | .word, f, i, j, h, hf => by simp only [first]; exact first_oneCh (m := .word) rfl h
  | .any, f, i, j, h, hf => by simp only [first]; exact first_oneCh (m := .any) rfl h
  | .space, f, i, j, h, hf => by simp only [first]; exact first_oneCh (m := .space) rfl h
  | .negated m, f, i, j, h, hf => by
    simp only [first]
    split
    · rename_i ho; exact first_oneCh ho h
    · exact Fol.holds_univ _ _
  | .bos, f, i, j, h, hf => by simp only [toRx, Den] at h; obtain ⟨rfl, rfl⟩ := h; simpa [first] using hf
  | .eol, f, i, j, h, hf => by
    simp only [toRx, Den] at h
    simp only [first, Fol.holds]
    rcases h with ⟨rfl, _⟩ | ⟨h, _⟩
    · simp
    · simp [h, CSet.mem]
  | .simple m cs, f, i, j, h, hf => by
    simp only [toRx, Den] at h
    obtain ⟨k, h1, h2⟩ := h
    simp only [first]
    exact first_holds m _ i k h1 (first_cont cs f k j h2 hf)
  | .group m _ cs, f, i, j, h, hf => by
    simp only [toRx, Den] at h
    obtain ⟨k, h1, h2⟩ := h
    simp only [first]
    exact first_holds m _ i k h1 (first_cont cs f k j h2 hf)
  | .alt cs, f, i, j, h, hf => by
    simp only [toRx] at h
    simp only [first]
    exact first_cont cs f i j h hf
  | .greedy m lo hi cs, f, i, j, h, hf => by
    simp only [toRx, Den] at h
    obtain ⟨k, ⟨n, h1, _, h3⟩, h2⟩ := h
    simp only [first]
    cases n with
    | zero =>
      have : lo = 0 := by omega
      simp only [Iter] at h3; subst h3
      simp only [this, if_true, Fol.holds_union, Bool.or_eq_true]
      exact Or.inr (first_cont cs f i j h2 hf)
    | succ n =>
      obtain ⟨x, h4, _⟩ := h3
      have := first_holds m .univ i x h4 (Fol.holds_univ _ _)
      split
      · simp only [Fol.holds_union, this, Bool.true_or]
      · exact this
  | .lazy m lo hi cs, f, i, j, h, hf => by
    simp only [toRx, Den] at h
    obtain ⟨k, ⟨n, h1, _, h3⟩, h2⟩ := h
    simp only [first]
    cases n with
    | zero =>
      have : lo = 0 := by omega
      simp only [Iter] at h3; subst h3
      simp only [this, if_true, Fol.holds_union, Bool.or_eq_true]
      exact Or.inr (first_cont cs f i j h2 hf)
    | succ n =>
      obtain ⟨x, h4, _⟩ := h3
      have := first_holds m .univ i x h4 (Fol.holds_univ _ _)
      split
      · simp only [Fol.holds_union, this, Bool.true_or]
      · exact this
  | .possessive m lo hi cs, f, i, j, h, hf => by
    simp only [toRx, Den] at h
    obtain ⟨k, ⟨n, h1, _, h3⟩, h2⟩ := h
    simp only [first]
    cases n with
    | zero =>
      have : lo = 0 := by omega
      simp only [Iter] at h3; subst h3
      simp only [this, if_true, Fol.holds_union, Bool.or_eq_true]
      exact Or.inr (first_cont cs f i j h2 hf)
    | succ n =>
      obtain ⟨x, h4, _⟩ := h3
      have := first_holds m .univ i x h4 (Fol.holds_univ _ _)
      split
      · simp only [Fol.holds_union, this, Bool.true_or]
      · exact this
  | .repeated m c cs, f, i, j, h, hf => by
    simp only [toRx, Den] at h
    obtain ⟨k, ⟨n, h1, h1', h3⟩, h2⟩ := h
    have hn : n = c := by have := h1' c rfl; omega
    subst hn
    simp only [first]
    cases n with
    | zero =>
      simp only [Iter] at h3; subst h3
      simp only [if_true]
      exact first_cont cs f i j h2 hf
    | succ n =>
      obtain ⟨x, h4, _⟩ := h3
      simpa using first_holds m .univ i x h4 (Fol.holds_univ _ _)
theorem first_cont {q : List Int} : ∀ (cs : List Node) (f : Fol) (i j : Nat), Den q (contOf (toRxs cs)) i j → f.holds q j = true →
    (firsts cs f).holds q i = true
  | [], f, i, j, h, hf => by
    rw [den_cont_nil] at h; subst h; simpa [firsts] using hf
  | [c], f, i, j, h, hf => by
    rw [den_cont q (by simp)] at h
    obtain ⟨x, hx, hd⟩ := h
    have : x = c := by simpa using hx
    rw [this] at hd
    simp only [firsts]; exact first_holds c f i j hd hf
  | c :: d :: cs, f, i, j, h, hf => by
    rw [den_cont q (by simp)] at h
    obtain ⟨x, hx, hd⟩ := h
    simp only [firsts, Fol.holds_union, Bool.or_eq_true]
    by_cases e : x = c
    · rw [e] at hd; exact Or.inl (first_holds c f i j hd hf)
    · refine Or.inr (first_cont (d :: cs) f i j ?_ hf)
      rw [den_cont q (by simp)]
      exact ⟨x, by rcases List.mem_cons.1 hx with h | h; exact absurd h e; exact h, hd⟩
end

/-! ## fixed width -/

mutual
/-- The width of a tree all of whose matches have the same width. -/
def width : Node → Option Nat
  | .exact s _ => some s.length
  | .range .. | .word | .any | .space | .negated _ => some 1
  | .bos => some 0
  | .eol => none
  | .simple m cs | .group m _ cs =>
    match width m, widths cs with
    | some a, some b => some (a + b)
    | _, _ => none
  | .alt cs => widths cs
  | .greedy m lo hi cs | .lazy m lo hi cs | .possessive m lo hi cs =>
    match width m, widths cs with
    | some a, some b => if lo = hi ∧ hi ≠ umax then some (a * lo + b) else none
    | _, _ => none
  | .repeated m n cs =>
    match width m, widths cs with
    | some a, some b => some (a * n + b)
    | _, _ => none
/-- The common width of a continuation. -/
def widths : List Node → Option Nat
  | [] => some 0
  | [c] => width c
  | c :: d :: cs =>
    match width c, widths (d :: cs) with
    | some a, some b => if a = b then some a else none
    | _, _ => none
end

theorem iter_width {R : Nat → Nat → Prop} {w : Nat} (h : ∀ i j, R i j → j = i + w) : ∀ (n i j : Nat), Iter R n i j → j = i + w * n
  | 0, i, j, hi => by simp only [Iter] at hi; omega
  | n + 1, i, j, ⟨k, h1, h2⟩ => by
    have := h _ _ h1
    have := iter_width h n k j h2
    rw [Nat.mul_succ]; omega

theorem rep_width {q : List Int} {m : Node} {cs : List Node} {lo hi w : Nat} (hm : ∀ a, width m = some a → ∀ i j, Den q (toRx m) i j → j = i + a)
    (hc : ∀ b, widths cs = some b → ∀ i j, Den q (contOf (toRxs cs)) i j → j = i + b)
    (hw : (match width m, widths cs with | some a, some b => if lo = hi ∧ hi ≠ umax then some (a * lo + b) else none | _, _ => none) = some w)
    {i j : Nat} (h : Den q (.seq (.rep (toRx m) lo (boundOf hi)) (contOf (toRxs cs))) i j) : j = i + w := by
  split at hw
  · rename_i a b e1 e2
    split at hw
    · rename_i hl
      obtain ⟨hl, hu⟩ := hl
      simp only [Option.some.injEq] at hw; subst hw
      simp only [Den] at h
      obtain ⟨k, ⟨n, h1, h2, h3⟩, h4⟩ := h
      have hn : n = lo := by
        have := h2 hi (by simp [boundOf, hu]); omega
      subst hn
      have := iter_width (hm a e1) n i k h3
      have := hc b e2 k j h4
      omega
    · simp at hw
  · simp at hw

mutual
theorem width_den {q : List Int} : ∀ (t : Node) (w : Nat), width t = some w → ∀ i j, Den q (toRx t) i j → j = i + w
  | .exact s _, w, hw, i, j, h => by
    simp only [width, Option.some.injEq] at hw; subst hw; simp only [toRx, Den] at h; exact h.1
  | .range .., w, hw, i, j, h | .word, w, hw, i, j, h | .any, w, hw, i, j, h | .space, w, hw, i, j, h | .negated _, w, hw, i, j, h => by
    simp only [width, Option.some.injEq] at hw; subst hw; simp only [toRx, Den] at h; exact h.1
  | .bos, w, hw, i, j, h => by
    simp only [width, Option.some.injEq] at hw; subst hw; simp only [toRx, Den] at h; omega
  | .eol, w, hw, i, j, h => by simp [width] at hw
  | .simple m cs, w, hw, i, j, h => by
    simp only [width] at hw
    split at hw
    · rename_i a b e1 e2
      simp only [Option.some.injEq] at hw; subst hw
      simp only [toRx, Den] at h
      obtain ⟨k, h1, h2⟩ := h
      have := width_den m a e1 i k h1
      have := widths_den cs b e2 k j h2
      omega
    · simp at hw
  | .group m _ cs, w, hw, i, j, h => by
    simp only [width] at hw
    split at hw
    · rename_i a b e1 e2
      simp only [Option.some.injEq] at hw; subst hw
      simp only [toRx, Den] at h
      obtain ⟨k, h1, h2⟩ := h
      have := width_den m a e1 i k h1
      have := widths_den cs b e2 k j h2
      omega
    · simp at hw
  | .alt cs, w, hw, i, j, h => by
    simp only [width] at hw
    simp only [toRx] at h
    exact widths_den cs w hw i j h
  | .greedy m lo hi cs, w, hw, i, j, h => by
    simp only [width] at hw; simp only [toRx] at h
    exact rep_width (fun a e i j => width_den m a e i j) (fun b e i j => widths_den cs b e i j) hw h
  | .lazy m lo hi cs, w, hw, i, j, h => by
    simp only [width] at hw; simp only [toRx] at h
    exact rep_width (fun a e i j => width_den m a e i j) (fun b e i j => widths_den cs b e i j) hw h
  | .possessive m lo hi cs, w, hw, i, j, h => by
    simp only [width] at hw; simp only [toRx] at h
    exact rep_width (fun a e i j => width_den m a e i j) (fun b e i j => widths_den cs b e i j) hw h
  | .repeated m c cs, w, hw, i, j, h => by
    simp only [width] at hw
    split at hw
    · rename_i a b e1 e2
      simp only [Option.some.injEq] at hw; subst hw
      simp only [toRx, Den] at h
      obtain ⟨k, ⟨n, h1, h1', h3⟩, h2⟩ := h
      have hn : n = c := by have := h1' c rfl; omega
      subst hn
      have := iter_width (fun i j => width_den m a e1 i j) n i k h3
      have := widths_den cs b e2 k j h2
      omega
    · simp at hw
theorem widths_den {q : List Int} : ∀ (cs : List Node) (w : Nat), widths cs = some w → ∀ i j, Den q (contOf (toRxs cs)) i j → j = i + w
  | [], w, hw, i, j, h => by
    simp only [widths, Option.some.injEq] at hw; subst hw; rw [den_cont_nil] at h; omega
  | [c], w, hw, i, j, h => by
    simp only [widths] at hw
    rw [den_cont q (by simp)] at h
    obtain ⟨x, hx, hd⟩ := h
    have : x = c := by simpa using hx
    rw [this] at hd
    exact width_den c w hw i j hd
  | c :: d :: cs, w, hw, i, j, h => by
    simp only [widths] at hw
    split at hw
    · rename_i a b e1 e2
      split at hw
      · rename_i e
        simp only [Option.some.injEq] at hw; subst hw
        rw [den_cont q (by simp)] at h
        obtain ⟨x, hx, hd⟩ := h
        by_cases e' : x = c
        · rw [e'] at hd; exact width_den c a e1 i j hd
        · rw [e]
          refine widths_den (q := q) (d :: cs) b e2 i j ?_
          rw [den_cont q (by simp)]
          exact ⟨x, by rcases List.mem_cons.1 hx with h | h; exact absurd h e'; exact h, hd⟩
      · simp at hw
    · simp at hw
end

end ERegex

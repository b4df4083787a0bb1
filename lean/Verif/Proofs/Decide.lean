import Verif.Spec.Lang
/-!
# The denotation is decidable

`ends q r i` lists the offsets `j` with `Den q r i j`; used to show on concrete texts that a regular expression does, or does
not, match.
-/
set_option autoImplicit false
namespace ERegex
open Spec

/-- `n`-fold image of a list of offsets. -/
def iterEnds (f : Nat → List Nat) : Nat → List Nat → List Nat
  | 0, l => l
  | n + 1, l => iterEnds f n (l.flatMap f).eraseDups

/-- All `j` with `Den q r i j`. -/
def ends (q : List Int) : Rx → Nat → List Nat
  | .eps, i => [i]
  | .fail, _ => []
  | .lit s, i => if (List.range s.length).all (fun k => q[i + k]? == s[k]?) then [i + s.length] else []
  | .cls p, i => match q[i]? with
    | some c => if p c then [i + 1] else []
    | none => []
  | .bos, i => if i = 0 then [0] else []
  | .eol, i => if i = q.length then [i] else if q[i]? = some 10 then [i + 1] else []
  | .neg r, i => if i < q.length ∧ ends q r i = [] then [i + 1] else []
  | .seq r s, i => ((ends q r i).flatMap (ends q s)).eraseDups
  | .alt r s, i => ends q r i ++ ends q s i
  | .rep r lo hi, i =>
    let top := match hi with
      | some h => min h (lo + (q.length - i))
      | none => lo + (q.length - i)
    (List.range (top + 1 - lo)).flatMap (fun k => iterEnds (ends q r) (lo + k) [i])

theorem mem_iterEnds (f : Nat → List Nat) : ∀ (n : Nat) (l : List Nat) (j : Nat),
    j ∈ iterEnds f n l ↔ ∃ i ∈ l, Iter (fun a b => b ∈ f a) n i j
  | 0, l, j => by simp [iterEnds, Iter]
  | n + 1, l, j => by
    rw [iterEnds, mem_iterEnds f n]
    simp only [List.mem_eraseDups, List.mem_flatMap, Iter]
    constructor
    · rintro ⟨k, ⟨i, h1, h2⟩, h3⟩; exact ⟨i, h1, k, h2, h3⟩
    · rintro ⟨i, h1, k, h2, h3⟩; exact ⟨k, ⟨i, h1, h2⟩, h3⟩

theorem iter_le {R : Nat → Nat → Prop} (h : ∀ a b, R a b → a ≤ b) : ∀ (n i j : Nat), Iter R n i j → i ≤ j
  | 0, i, j, e => Nat.le_of_eq e
  | n + 1, i, j, ⟨k, h1, h2⟩ => Nat.le_trans (h _ _ h1) (iter_le h n k j h2)

/-- The relation only goes forward, and stays inside the query. -/
theorem den_le (q : List Int) : ∀ (r : Rx) (i j : Nat), Den q r i j → i ≤ j ∧ (i ≤ q.length → j ≤ q.length)
  | .eps, i, j, h => by simp only [Den] at h; omega
  | .fail, i, j, h => by simp [Den] at h
  | .lit s, i, j, ⟨h, h2⟩ => by
    refine ⟨by omega, fun hi => ?_⟩
    rcases Nat.eq_zero_or_pos s.length with h0 | h0
    · omega
    · have := h2 (s.length - 1) (by omega)
      rw [List.getElem?_eq_getElem (l := s) (by omega)] at this
      obtain ⟨hl, _⟩ := List.getElem?_eq_some_iff.1 this
      omega
  | .cls p, i, j, ⟨h, c, h1, _⟩ => by
    obtain ⟨hl, _⟩ := List.getElem?_eq_some_iff.1 h1
    omega
  | .bos, i, j, h => by simp only [Den] at h; omega
  | .eol, i, j, h => by
    rcases h with h | ⟨h1, h⟩
    · omega
    · obtain ⟨hl, _⟩ := List.getElem?_eq_some_iff.1 h1
      omega
  | .neg r, i, j, ⟨h, h1, _⟩ => by omega
  | .seq r s, i, j, ⟨k, h1, h2⟩ => by
    have := den_le q r i k h1
    have := den_le q s k j h2
    omega
  | .alt r s, i, j, h => by
    rcases h with h | h
    · exact den_le q r i j h
    · exact den_le q s i j h
  | .rep r lo hi, i, j, ⟨n, ha, hb, h⟩ => by
    have hr := den_le q r
    clear ha hb
    induction n generalizing i with
    | zero => simp only [Iter] at h; omega
    | succ n ih =>
      obtain ⟨k, h1, h2⟩ := h
      have := hr i k h1
      have := ih k h2
      omega

/-- More steps than the distance: one of them is empty and can be dropped. -/
theorem iter_drop {R : Nat → Nat → Prop} (h : ∀ a b, R a b → a ≤ b) : ∀ (n i j : Nat), j - i < n → Iter R n i j →
    ∃ m, n = m + 1 ∧ Iter R m i j
  | 0, i, j, hn, _ => by omega
  | n + 1, i, j, hn, ⟨k, h1, h2⟩ => by
    have := h _ _ h1
    have := iter_le h n k j h2
    by_cases hk : k = i
    · subst hk; exact ⟨n, rfl, h2⟩
    · obtain ⟨m, hm, h3⟩ := iter_drop h n k j (by omega) h2
      exact ⟨n, rfl, by subst hm; exact ⟨k, h1, h3⟩⟩

theorem iter_short {R : Nat → Nat → Prop} (h : ∀ a b, R a b → a ≤ b) (lo i j : Nat) : ∀ (n : Nat), lo ≤ n → Iter R n i j →
    ∃ m, lo ≤ m ∧ m ≤ n ∧ m ≤ lo + (j - i) ∧ Iter R m i j := by
  intro n
  induction n with
  | zero => intro h1 h2; exact ⟨0, h1, by omega, by omega, h2⟩
  | succ n ih =>
    intro h1 h2
    by_cases hb : n + 1 ≤ lo + (j - i)
    · exact ⟨n + 1, h1, by omega, hb, h2⟩
    · obtain ⟨m, hm, h3⟩ := iter_drop h (n + 1) i j (by omega) h2
      have : n = m := by omega
      subst this
      obtain ⟨x, h4, h5, h6, h7⟩ := ih (by omega) h3
      exact ⟨x, h4, by omega, h6, h7⟩

theorem iter_congr {α : Type} {R S : α → α → Prop} (h : ∀ a b, R a b ↔ S a b) : ∀ (n : Nat) (i j : α), Iter R n i j ↔ Iter S n i j
  | 0, i, j => Iff.rfl
  | n + 1, i, j => by simp only [Iter, h, iter_congr h n]

theorem mem_ends (q : List Int) : ∀ (r : Rx) (i j : Nat), i ≤ q.length → (j ∈ ends q r i ↔ Den q r i j)
  | .eps, i, j, _ => by simp [ends, Den, eq_comm]
  | .fail, i, j, _ => by simp [ends, Den]
  | .lit s, i, j, _ => by
    simp only [ends, Den]
    split
    · rename_i h; simp only [List.all_eq_true, List.mem_range, beq_iff_eq] at h; simpa using fun _ => h
    · rename_i h
      simp only [List.all_eq_true, List.mem_range, beq_iff_eq] at h
      simp only [List.not_mem_nil, false_iff, not_and]
      exact fun _ h' => h h'
  | .cls p, i, j, _ => by
    simp only [ends, Den]
    cases hq : q[i]? with
    | none => simp
    | some c => by_cases hp : p c = true <;> simp [hp]
  | .bos, i, j, _ => by simp only [ends, Den]; split <;> simp_all
  | .eol, i, j, _ => by
    simp only [ends, Den]
    split
    · rename_i h
      have : q[i]? = none := by simp [h]
      simp [h]
    · rename_i h; split <;> simp_all
  | .neg r, i, j, hi => by
    simp only [ends, Den]
    have := mem_ends q r i
    have he : ends q r i = [] ↔ ∀ k, ¬ Den q r i k := by
      rw [List.eq_nil_iff_forall_not_mem]
      exact forall_congr' (fun k => not_congr (this k hi))
    split
    · rename_i h; simp [h.1, he.1 h.2]
    · rename_i h
      rw [he] at h
      simp only [List.not_mem_nil, false_iff, not_and]
      exact fun _ h1 h2 => h ⟨h1, h2⟩
  | .seq r s, i, j, hi => by
    simp only [ends, Den, List.mem_eraseDups, List.mem_flatMap]
    constructor
    · rintro ⟨k, h1, h2⟩
      have h1 := (mem_ends q r i k hi).1 h1
      exact ⟨k, h1, (mem_ends q s k j ((den_le q r i k h1).2 hi)).1 h2⟩
    · rintro ⟨k, h1, h2⟩
      exact ⟨k, (mem_ends q r i k hi).2 h1, (mem_ends q s k j ((den_le q r i k h1).2 hi)).2 h2⟩
  | .alt r s, i, j, hi => by simp [ends, Den, mem_ends q r i j hi, mem_ends q s i j hi]
  | .rep r lo hi, i, j, hl => by
    have hR := fun a b h => mem_ends q r a b h
    have key : ∀ (n a : Nat), a ≤ q.length → (Iter (fun a b => b ∈ ends q r a) n a j ↔ Iter (Den q r) n a j) := by
      intro n
      induction n with
      | zero => intro a _; exact Iff.rfl
      | succ n ih =>
        intro a ha
        simp only [Iter]
        constructor
        · rintro ⟨k, h1, h2⟩
          have h1 := (hR a k ha).1 h1
          exact ⟨k, h1, (ih k ((den_le q r a k h1).2 ha)).1 h2⟩
        · rintro ⟨k, h1, h2⟩
          exact ⟨k, (hR a k ha).2 h1, (ih k ((den_le q r a k h1).2 ha)).2 h2⟩
    simp only [ends, Den, List.mem_flatMap, List.mem_range, mem_iterEnds, List.mem_singleton, exists_eq_left]
    constructor
    · rintro ⟨k, hk, h⟩
      refine ⟨lo + k, by omega, ?_, (key _ i hl).1 h⟩
      intro x hx
      subst hx
      simp only at hk
      omega
    · rintro ⟨n, h1, h2, h3⟩
      obtain ⟨x, h4, h5, h6, h7⟩ := iter_short (fun a b h => (den_le q r a b h).1) lo i j n h1 h3
      have hj := (den_le q (.rep r lo none) i j ⟨n, h1, by simp, h3⟩)
      refine ⟨x - lo, ?_, (key _ i hl).2 (by rw [Nat.add_sub_cancel' h4]; exact h7)⟩
      cases hi with
      | none => simp only; omega
      | some h => have := h2 h rfl; simp only; omega

/-- Deciding `Den` on a concrete query. -/
theorem den_iff_ends {q : List Int} {r : Rx} {i j : Nat} (hi : i ≤ q.length) : Den q r i j ↔ j ∈ ends q r i :=
  (mem_ends q r i j hi).symm

end ERegex

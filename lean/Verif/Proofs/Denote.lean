import Verif.Proofs.Repeat
import Verif.Proofs.Clean
/-!
# Lemmas about the denotation of trees
-/
set_option autoImplicit false
namespace ERegex
open Spec

theorem den_altOf (q : List Int) : ∀ (rs : List Rx) (i j : Nat), Den q (altOf rs) i j ↔ ∃ r ∈ rs, Den q r i j
  | [], i, j => by simp [altOf, Den]
  | [r], i, j => by simp [altOf]
  | r :: s :: rs, i, j => by
    have ih := den_altOf q (s :: rs) i j
    simp only [altOf, Den]
    rw [ih]
    simp

theorem toRxs_eq_map : ∀ cs : List Node, toRxs cs = cs.map toRx
  | [] => by simp [toRxs]
  | c :: cs => by simp [toRxs, toRxs_eq_map cs]

/-- Continuation of no children: the empty string. -/
theorem den_cont_nil (q : List Int) (i j : Nat) : Den q (contOf (toRxs [])) i j ↔ i = j := by simp [toRxs, contOf, Den]

/-- Continuation of some children: one of them. -/
theorem den_cont (q : List Int) {cs : List Node} (h : cs ≠ []) (i j : Nat) :
    Den q (contOf (toRxs cs)) i j ↔ ∃ c ∈ cs, Den q (toRx c) i j := by
  cases cs with
  | nil => exact absurd rfl h
  | cons c cs =>
    have : contOf (toRxs (c :: cs)) = altOf (toRxs (c :: cs)) := by simp [toRxs, contOf]
    rw [this, den_altOf, toRxs_eq_map]
    constructor
    · rintro ⟨r, hr, hd⟩
      obtain ⟨a, ha, rfl⟩ := List.mem_map.1 hr
      exact ⟨a, ha, hd⟩
    · rintro ⟨a, ha, hd⟩
      exact ⟨_, List.mem_map.2 ⟨a, ha, rfl⟩, hd⟩

/-- The tree denotes exactly the one-character strings of the class `p`. -/
def ClassOf (m : Node) (p : Int → Bool) : Prop := ∀ q i j, Den q (toRx m) i j ↔ (j = i + 1 ∧ ∃ c, q[i]? = some c ∧ p c = true)

theorem classOf_unique {m : Node} {p p' : Int → Bool} (h : ClassOf m p) (h' : ClassOf m p') : p = p' := by
  funext c
  have e := (h [c] 0 1).symm.trans (h' [c] 0 1)
  simp only [List.getElem?_cons_zero, Option.some.injEq, true_and, exists_eq_left', Nat.zero_add] at e
  cases hp : p c <;> cases hp' : p' c <;> simp_all

theorem classOf_seq_eps {m : Node} {p : Int → Bool} (h : ClassOf m p) : ClassOf (.simple m []) p := by
  intro q i j
  have := same_seq_eps (toRx m) q i j
  simp only [toRx, toRxs, contOf]
  rw [this]; exact h q i j

theorem den_single_cases : (∀ m : Node, oneCh m = true → ClassOf m (testOf m)) := by
  intro m h
  simp only [oneCh, Bool.or_eq_true] at h
  rcases h with h | h
  · exact go m h
  · exact go' m h
where
  go : ∀ m : Node, single m = true → ClassOf m (testOf m)
    | .exact s d, h => by
      simp only [single, decide_eq_true_eq] at h
      obtain ⟨x, rfl⟩ := List.length_eq_one_iff.1 h
      intro q i j
      simp only [toRx, Den, List.length_cons, List.length_nil, Nat.zero_add, testOf]
      refine and_congr_right (fun _ => ?_)
      constructor
      · intro h
        have := h 0 (by omega)
        simp at this
        exact ⟨x, this, by simp⟩
      · rintro ⟨c, hc, hp⟩ k hk
        have : k = 0 := by omega
        subst this
        simp at hp
        simp [hc, hp]
    | .range a b d, _ => by intro q i j; simp [toRx, Den, testOf, rangeTest]
    | .word, _ => by
      intro q i j
      simp only [toRx, Den, testOf, wordTest]
      simp
    | .any, _ => by
      intro q i j
      simp only [toRx, Den, testOf, anyTest]
      simp
    | .negated _, h => by simp [single] at h
    | .simple m cs, h => by
      simp only [single, Bool.and_eq_true, List.isEmpty_iff] at h
      obtain ⟨h1, rfl⟩ := h
      have e : testOf (.simple m []) = testOf m := by funext c; simp [testOf]
      rw [e]; exact classOf_seq_eps (go m h1)
    | .alt cs, h => by
      simp only [single, Bool.and_eq_true] at h
      have hne : cs ≠ [] := by intro e; simp [e] at h
      intro q i j
      simp only [toRx]
      rw [den_cont q hne]
      have e : testOf (.alt cs) = testsOf cs := by funext c; simp [testOf]
      rw [e]
      exact gos cs h.2 q i j
    | .space, h => by simp [single] at h
    | .bos, h => by simp [single] at h
    | .eol, h => by simp [single] at h
    | .greedy .., h => by simp [single] at h
    | .lazy .., h => by simp [single] at h
    | .possessive .., h => by simp [single] at h
    | .repeated .., h => by simp [single] at h
    | .group .., h => by simp [single] at h
  gos : ∀ cs : List Node, singles cs = true → ∀ q i j, (∃ c ∈ cs, Den q (toRx c) i j) ↔
      (j = i + 1 ∧ ∃ c, q[i]? = some c ∧ testsOf cs c = true)
    | [], _, q, i, j => by simp [testsOf]
    | c :: cs, h, q, i, j => by
      simp only [singles, Bool.and_eq_true] at h
      have h1 := go c h.1 q i j
      have h2 := gos cs h.2 q i j
      simp only [List.mem_cons, exists_eq_or_imp, h1, h2, testsOf, Bool.or_eq_true]
      constructor
      · rintro (⟨a, x, b, c⟩ | ⟨a, x, b, c⟩)
        · exact ⟨a, x, b, Or.inl c⟩
        · exact ⟨a, x, b, Or.inr c⟩
      · rintro ⟨a, x, b, c | c⟩
        · exact Or.inl ⟨a, x, b, c⟩
        · exact Or.inr ⟨a, x, b, c⟩
  go' : ∀ m : Node, skipping m = true → ClassOf m (testOf m)
    | .space, _ => by
      intro q i j
      simp only [toRx, Den, testOf, spaceTest]
      refine and_congr_right (fun _ => exists_congr (fun c => and_congr_right (fun _ => ?_)))
      simp only [List.any_cons, List.any_nil, Bool.or_false, Bool.or_eq_true, beq_iff_eq]
      constructor
      · rintro ((((h | h) | h) | h) | h) <;> simp [h]
      · rintro (h | h | h | h | h) <;> simp [← h]
    | .negated m, h => by
      simp only [skipping] at h
      have h1 := go m h
      intro q i j
      simp only [toRx, Den, testOf, Bool.not_eq_true']
      refine and_congr_right (fun _ => ?_)
      constructor
      · rintro ⟨hl, hk⟩
        refine ⟨q[i], List.getElem?_eq_getElem hl, ?_⟩
        cases hp : testOf m q[i] with
        | false => rfl
        | true => exact absurd ((h1 q i (i + 1)).2 ⟨rfl, _, List.getElem?_eq_getElem hl, hp⟩) (hk _)
      · rintro ⟨c, hc, hp⟩
        refine ⟨(List.getElem?_eq_some_iff.1 hc).1, fun k hk => ?_⟩
        obtain ⟨_, c', hc', hp'⟩ := (h1 q i k).1 hk
        rw [hc] at hc'
        cases hc'
        simp [hp] at hp'
    | .simple m cs, h => by
      simp only [skipping, Bool.and_eq_true, List.isEmpty_iff] at h
      obtain ⟨h1, rfl⟩ := h
      have e : testOf (.simple m []) = testOf m := by funext c; simp [testOf]
      rw [e]; exact classOf_seq_eps (go' m h1)
    | .alt cs, h => by
      simp only [skipping] at h
      have hne : cs ≠ [] := by intro e; simp [e, skippings] at h
      intro q i j
      simp only [toRx]
      rw [den_cont q hne]
      have e : testOf (.alt cs) = testsOf cs := by funext c; simp [testOf]
      rw [e]
      exact gos' cs h q i j
    | .exact .., h => by simp [skipping] at h
    | .range .., h => by simp [skipping] at h
    | .word, h => by simp [skipping] at h
    | .any, h => by simp [skipping] at h
    | .bos, h => by simp [skipping] at h
    | .eol, h => by simp [skipping] at h
    | .greedy .., h => by simp [skipping] at h
    | .lazy .., h => by simp [skipping] at h
    | .possessive .., h => by simp [skipping] at h
    | .repeated .., h => by simp [skipping] at h
    | .group .., h => by simp [skipping] at h
  gos' : ∀ cs : List Node, skippings cs = true → ∀ q i j, (∃ c ∈ cs, Den q (toRx c) i j) ↔
      (j = i + 1 ∧ ∃ c, q[i]? = some c ∧ testsOf cs c = true)
    | [], h, q, i, j => by simp [skippings] at h
    | [c], h, q, i, j => by
      simp only [skippings] at h
      have h1 := go' c h q i j
      simp [h1, testsOf]
    | c :: d :: cs, h, q, i, j => by
      have h0 : single c = true ∧ skippings (d :: cs) = true := by rw [skippings] at h; simpa using h
      have h1 := go c h0.1 q i j
      have h2 := gos' (d :: cs) h0.2 q i j
      have et : ∀ x, (testsOf (c :: d :: cs) x = true) = (testOf c x = true ∨ testsOf (d :: cs) x = true) := by
        intro x; rw [testsOf, Bool.or_eq_true]
      have el : (∃ x ∈ c :: d :: cs, Den q (toRx x) i j) ↔ (Den q (toRx c) i j ∨ ∃ x ∈ d :: cs, Den q (toRx x) i j) := by
        exact ⟨fun ⟨x, hx, hd⟩ => (List.mem_cons.1 hx).elim (fun e => Or.inl (e ▸ hd)) (fun hx => Or.inr ⟨x, hx, hd⟩),
          fun h => h.elim (fun hd => ⟨c, by simp, hd⟩) (fun ⟨x, hx, hd⟩ => ⟨x, List.mem_cons_of_mem _ hx, hd⟩)⟩
      rw [el, h1, h2]
      simp only [et]
      constructor
      · rintro (⟨a, x, b, c⟩ | ⟨a, x, b, c⟩)
        · exact ⟨a, x, b, Or.inl c⟩
        · exact ⟨a, x, b, Or.inr c⟩
      · rintro ⟨a, x, b, c | c⟩
        · exact Or.inl ⟨a, x, b, c⟩
        · exact Or.inr ⟨a, x, b, c⟩

/-- A one-character tree denotes its class. -/
theorem classOf_oneCh {m : Node} (h : oneCh m = true) : ClassOf m (testOf m) := den_single_cases m h

/-- `n` repetitions of a class are `n` characters of it. -/
theorem iter_class {m : Node} {p : Int → Bool} (h : ClassOf m p) (q : List Int) : ∀ (n i j : Nat),
    Iter (Den q (toRx m)) n i j ↔ (j = i + n ∧ InClass q p i n) := by
  intro n
  induction n with
  | zero => intro i j; simp only [Iter, Nat.add_zero]; exact ⟨fun h => ⟨h.symm, inClass_zero _ _ _⟩, fun h => h.1.symm⟩
  | succ n ih =>
    intro i j
    simp only [Iter, ih]
    constructor
    · rintro ⟨k, hk, rfl, hin⟩
      obtain ⟨rfl, c, hc, hp⟩ := (h q i k).1 hk
      refine ⟨by omega, ?_⟩
      rw [Nat.add_comm n 1]
      exact inClass_add.2 ⟨inClass_one hc hp, hin⟩
    · rintro ⟨rfl, hin⟩
      rw [Nat.add_comm n 1] at hin
      obtain ⟨h1, h2⟩ := inClass_add.1 hin
      obtain ⟨c, hc, hp⟩ := h1 0 (by omega)
      exact ⟨i + 1, (h q i _).2 ⟨rfl, c, by simpa using hc, hp⟩, by omega, h2⟩

end ERegex

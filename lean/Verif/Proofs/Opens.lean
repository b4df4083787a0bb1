import Verif.Spec.Opens
import Verif.Proofs.Texts
import Verif.Proofs.Decide
/-!
# The first set is the set of first characters
-/
set_option autoImplicit false
namespace ERegex
open ERegex.Spec

theorem iter_opens {q : List Int} {r : Rx} (hr : ∀ i j, Den q r i j → (i = j → r.empties = true) ∧ ∀ x, i < j → q[i]? = some x → r.opens x = true) :
    ∀ (n i j : Nat), Iter (Den q r) n i j → (i = j → n = 0 ∨ r.empties = true) ∧ ∀ x, i < j → q[i]? = some x → n ≠ 0 ∧ r.opens x = true := by
  intro n
  induction n with
  | zero => intro i j h; simp only [Iter] at h; exact ⟨fun _ => Or.inl rfl, fun x hx => by omega⟩
  | succ n ih =>
    intro i j ⟨k, h1, h2⟩
    have l1 := (den_le q r i k h1).1
    have l2 : k ≤ j := by
      have : ∀ (n k j : Nat), Iter (Den q r) n k j → k ≤ j := by
        intro n
        induction n with
        | zero => intro k j h; simp only [Iter] at h; omega
        | succ n ih => intro k j ⟨l, h1, h2⟩; have := (den_le q r k l h1).1; have := ih l j h2; omega
      exact this n k j h2
    refine ⟨fun e => Or.inr ((hr i k h1).1 (by omega)), fun x hx hq => ⟨by omega, ?_⟩⟩
    by_cases e : i = k
    · subst e; exact ((ih i j h2).2 x hx hq).2
    · exact (hr i k h1).2 x (by omega) hq

/-- Matches begin with characters of the first set. -/
theorem den_opens (q : List Int) : ∀ (r : Rx) (i j : Nat), Den q r i j → (i = j → r.empties = true) ∧ ∀ x, i < j → q[i]? = some x → r.opens x = true
  | .eps, i, j, h => ⟨fun _ => rfl, fun x hx => by simp only [Den] at h; omega⟩
  | .fail, i, j, h => by simp [Den] at h
  | .lit s, i, j, h => by
    obtain ⟨rfl, h2⟩ := h
    cases s with
    | nil => exact ⟨fun _ => rfl, fun x hx => by simp at hx⟩
    | cons c s =>
      refine ⟨fun e => by simp at e, fun x _ hq => ?_⟩
      have := h2 0 (by simp)
      simp only [Nat.add_zero, hq] at this
      simp only [Rx.opens, List.head?_cons]
      simpa using this.symm
  | .cls p, i, j, h => by
    obtain ⟨rfl, c, h2, h3⟩ := h
    refine ⟨fun e => by omega, fun x _ hq => ?_⟩
    rw [h2] at hq; cases hq; exact h3
  | .bos, i, j, h => ⟨fun _ => rfl, fun x hx => by simp only [Den] at h; omega⟩
  | .eol, i, j, h => by
    refine ⟨fun _ => rfl, fun x hx hq => ?_⟩
    simp only [Den] at h
    rcases h with h | h
    · omega
    · rw [h.1] at hq; cases hq; rfl
  | .neg r, i, j, h => by
    obtain ⟨rfl, h2⟩ := h
    exact ⟨fun e => by omega, fun _ _ _ => rfl⟩
  | .seq r s, i, j, ⟨k, h1, h2⟩ => by
    have l1 := (den_le q r i k h1).1
    have l2 := (den_le q s k j h2).1
    have d1 := den_opens q r i k h1
    have d2 := den_opens q s k j h2
    refine ⟨fun e => ?_, fun x hx hq => ?_⟩
    · simp only [Rx.empties, Bool.and_eq_true]; exact ⟨d1.1 (by omega), d2.1 (by omega)⟩
    · simp only [Rx.opens, Bool.or_eq_true, Bool.and_eq_true]
      by_cases e : i = k
      · subst e; exact Or.inr ⟨d1.1 rfl, d2.2 x hx hq⟩
      · exact Or.inl (d1.2 x (by omega) hq)
  | .alt r s, i, j, h => by
    simp only [Rx.empties, Rx.opens, Bool.or_eq_true]
    rcases h with h | h
    · exact ⟨fun e => Or.inl ((den_opens q r i j h).1 e), fun x hx hq => Or.inl ((den_opens q r i j h).2 x hx hq)⟩
    · exact ⟨fun e => Or.inr ((den_opens q s i j h).1 e), fun x hx hq => Or.inr ((den_opens q s i j h).2 x hx hq)⟩
  | .rep r lo hi, i, j, ⟨n, h1, h2, h3⟩ => by
    have := iter_opens (den_opens q r) n i j h3
    refine ⟨fun e => ?_, fun x hx hq => ?_⟩
    · simp only [Rx.empties, Bool.or_eq_true, beq_iff_eq]
      rcases this.1 e with h | h
      · exact Or.inl (by omega)
      · exact Or.inr h
    · obtain ⟨hn, ho⟩ := this.2 x hx hq
      simp only [Rx.opens, ho, Bool.and_true, bne_iff_ne, ne_eq]
      intro e; have := h2 0 e; omega

theorem power_nil {L : List Int → Prop} (h : L []) : ∀ n, Power L n []
  | 0 => rfl
  | n + 1 => ⟨[], [], rfl, h, power_nil h n⟩

theorem power_some {L : List Int → Prop} (h : ∃ w, L w) : ∀ n, ∃ w, Power L n w
  | 0 => ⟨[], rfl⟩
  | n + 1 => by
    obtain ⟨u, hu⟩ := h
    obtain ⟨v, hv⟩ := power_some ⟨u, hu⟩ n
    exact ⟨u ++ v, u, v, rfl, hu, hv⟩

/-- Every part of a filled expression has a text. -/
theorem stands_some : ∀ r : Rx, r.filled = true → r.floats = true → ∃ w, r.Stands w
  | .eps, _, _ => ⟨[], rfl⟩
  | .lit s, _, _ => ⟨s, rfl⟩
  | .cls p, h, _ => by
    simp only [Rx.filled, List.any_eq_true] at h
    obtain ⟨c, _, hc⟩ := h
    exact ⟨[c], c, rfl, hc⟩
  | .seq r s, h, hf => by
    simp only [Rx.filled, Rx.floats, Bool.and_eq_true] at h hf
    obtain ⟨u, hu⟩ := stands_some r h.1 hf.1
    obtain ⟨v, hv⟩ := stands_some s h.2 hf.2
    exact ⟨u ++ v, u, v, rfl, hu, hv⟩
  | .alt r s, h, hf => by
    simp only [Rx.filled, Rx.floats, Bool.and_eq_true] at h hf
    obtain ⟨u, hu⟩ := stands_some r h.1 hf.1
    exact ⟨u, Or.inl hu⟩
  | .rep r lo hi, h, hf => by
    simp only [Rx.filled, Bool.and_eq_true] at h
    obtain ⟨w, hw⟩ := power_some (stands_some r h.1 hf) lo
    exact ⟨w, lo, Nat.le_refl _, fun k e => by subst e; simpa using h.2, hw⟩

/-- What can be empty has the empty text. -/
theorem stands_empty : ∀ r : Rx, r.filled = true → r.floats = true → r.empties = true → r.Stands []
  | .eps, _, _, _ => rfl
  | .lit s, _, _, h => by simp [Rx.empties] at h; subst h; rfl
  | .seq r s, h, hf, he => by
    simp only [Rx.filled, Rx.floats, Rx.empties, Bool.and_eq_true] at h hf he
    exact ⟨[], [], rfl, stands_empty r h.1 hf.1 he.1, stands_empty s h.2 hf.2 he.2⟩
  | .alt r s, h, hf, he => by
    simp only [Rx.filled, Rx.floats, Rx.empties, Bool.and_eq_true, Bool.or_eq_true] at h hf he
    rcases he with he | he
    · exact Or.inl (stands_empty r h.1 hf.1 he)
    · exact Or.inr (stands_empty s h.2 hf.2 he)
  | .rep r lo hi, h, hf, he => by
    simp only [Rx.filled, Rx.empties, Bool.and_eq_true, Bool.or_eq_true, beq_iff_eq] at h he
    rcases he with rfl | he
    · exact ⟨0, Nat.le_refl _, fun k _ => Nat.zero_le _, rfl⟩
    · exact ⟨lo, Nat.le_refl _, fun k e => by subst e; simpa using h.2, power_nil (stands_empty r h.1 hf he) lo⟩

/-- Every character of the first set begins a text. -/
theorem stands_opens : ∀ (r : Rx), r.filled = true → r.floats = true → ∀ x, r.opens x = true → ∃ w, r.Stands (x :: w)
  | .eps, _, _, x, h => by simp [Rx.opens] at h
  | .fail, h, _, _, _ => by simp [Rx.filled] at h
  | .lit s, _, _, x, h => by
    cases s with
    | nil => simp [Rx.opens] at h
    | cons c s => simp [Rx.opens] at h; subst h; exact ⟨s, rfl⟩
  | .cls p, _, _, x, h => ⟨[], x, rfl, h⟩
  | .seq r s, h, hf, x, ho => by
    simp only [Rx.filled, Rx.floats, Rx.opens, Bool.and_eq_true, Bool.or_eq_true] at h hf ho
    rcases ho with ho | ⟨he, ho⟩
    · obtain ⟨u, hu⟩ := stands_opens r h.1 hf.1 x ho
      obtain ⟨v, hv⟩ := stands_some s h.2 hf.2
      exact ⟨u ++ v, x :: u, v, rfl, hu, hv⟩
    · obtain ⟨v, hv⟩ := stands_opens s h.2 hf.2 x ho
      exact ⟨v, [], x :: v, rfl, stands_empty r h.1 hf.1 he, hv⟩
  | .alt r s, h, hf, x, ho => by
    simp only [Rx.filled, Rx.floats, Rx.opens, Bool.and_eq_true, Bool.or_eq_true] at h hf ho
    rcases ho with ho | ho
    · obtain ⟨u, hu⟩ := stands_opens r h.1 hf.1 x ho; exact ⟨u, Or.inl hu⟩
    · obtain ⟨u, hu⟩ := stands_opens s h.2 hf.2 x ho; exact ⟨u, Or.inr hu⟩
  | .rep r lo hi, h, hf, x, ho => by
    simp only [Rx.filled, Rx.opens, Bool.and_eq_true, bne_iff_ne, ne_eq] at h ho
    obtain ⟨u, hu⟩ := stands_opens r h.1 hf x ho.2
    obtain ⟨v, hv⟩ := power_some ⟨_, hu⟩ (lo - 1)
    refine ⟨u ++ v, (lo - 1) + 1, by omega, fun k e => ?_, x :: u, v, rfl, hu, hv⟩
    subst e
    have h1 : lo ≤ k := by simpa using h.2
    have h2 : k ≠ 0 := fun e => ho.1 (by rw [e])
    omega

/-- The first set of an expression without anchors, all of whose parts can match, is exactly the set of first characters of its texts. -/
theorem opens_iff {r : Rx} (h : r.filled = true) (hf : r.floats = true) (x : Int) : r.opens x = true ↔ ∃ w, r.Stands (x :: w) := by
  refine ⟨stands_opens r h hf x, fun ⟨w, hw⟩ => ?_⟩
  have hd := stands_den (x :: w) r (x :: w) 0 hw (by simp)
  exact (den_opens _ r _ _ hd).2 x (by simp) rfl

end ERegex

import Verif.Props.Independent
/-!
# C66: is_independent is symmetric
-/
set_option autoImplicit false
namespace ERegex.Props
open ERegex ERegex.Spec

theorem intersectAux_comm : ∀ (f : Nat) (a b cur : List Int), intersectAux f a b cur = intersectAux f b a cur
  | _, [], [], _ => rfl
  | _, [], _ :: _, _ => by simp [intersectAux]
  | _, _ :: _, [], _ => by simp [intersectAux]
  | 0, _ :: _, _ :: _, _ => by simp [intersectAux]
  | f + 1, x :: a, y :: b, cur => by
    simp only [intersectAux]
    rcases Int.lt_trichotomy x y with h | h | h
    · rw [if_neg (by omega), if_pos h, if_neg (by omega), if_neg (by omega)]; exact intersectAux_comm f _ _ _
    · subst h; simp only [if_true]; exact intersectAux_comm f _ _ _
    · rw [if_neg (by omega), if_neg (by omega), if_neg (by omega), if_pos h]; exact intersectAux_comm f _ _ _

theorem intersectAux_self : ∀ (a : List Int) (f : Nat) (cur : List Int), a.length ≤ f → intersectAux f a a cur = cur ++ a
  | [], f, cur, _ => by cases f <;> simp [intersectAux]
  | x :: a, 0, cur, h => by simp at h
  | x :: a, f + 1, cur, h => by
    simp only [intersectAux, if_true]
    rw [intersectAux_self a f _ (by simpa using h)]; simp

/-- **C66.** `is_independent` does not depend on which of the two patterns is asked, whatever the patterns. -/
theorem C66_symmetric (p q : List Int) (s t : Node) (_hs : compile p = some s) (_ht : compile q = some t) : isIndependent s t = isIndependent t s := by
  rw [isIndependent, isIndependent, intersectSets, intersectSets, Nat.add_comm, intersectAux_comm]

/-- **C66.** A pattern that the library takes to be independent of itself is independent of every pattern (its first-character set is empty). -/
theorem C66_self (p q : List Int) (s t : Node) (_hs : compile p = some s) (_ht : compile q = some t) (h : isIndependent s s = true) :
    isIndependent s t = true ∧ isIndependent t s = true := by
  have he : extractAdm [admSet s] = [] := by
    rw [isIndependent, intersectSets, intersectAux_self _ _ _ (by omega)] at h
    simpa using h
  have h1 : isIndependent s t = true := by
    rw [isIndependent, he, intersectSets]; simp [intersectAux]
  exact ⟨h1, by rw [← C66_symmetric p q s t _hs _ht]; exact h1⟩

-- `\d+x` and `[a-f]y` are independent, either way round; `\d+x` and `7` are not
example : ∃ s t u, compile (str "\\d+x") = some s ∧ compile (str "[a-f]y") = some t ∧ compile (str "7") = some u ∧
    isIndependent s t = true ∧ isIndependent t s = true ∧ isIndependent s u = false ∧ isIndependent u s = false :=
  ⟨_, _, _, rfl, rfl, rfl, by decide +kernel⟩
-- a pattern that is independent of itself
example : ∃ s, compile ([91, 94, 0, 45, 127, 93] : List Int) = some s ∧ isIndependent s s = true := ⟨_, rfl, by decide +kernel⟩

end ERegex.Props

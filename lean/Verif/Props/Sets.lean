import Verif.Proofs.AdmittedSet
/-!
# C15 : the algebra of first-character sets
-/
set_option autoImplicit false
namespace ERegex.Props
open ERegex ERegex.Spec

/-- **C15.** Merging computes the union (of any two sets, sorted or not). -/
theorem C15_merge_mem (c : Int) (a b : List Int) : c ∈ mergeSets a b ↔ c ∈ a ∨ c ∈ b := mem_mergeSets c a b

/-- **C15.** Intersecting computes the intersection of strictly increasing sets. -/
theorem C15_intersect_mem (a b : List Int) (ha : Sorted a) (hb : Sorted b) (c : Int) :
    c ∈ intersectSets a b ↔ c ∈ a ∧ c ∈ b := mem_intersectSets ha hb c

/-- **C15.** Complementing a set of characters in `0..127` computes its complement within `0..127`. -/
theorem C15_complement_mem (a : List Int) (ha : Sorted a) (hr : ∀ c ∈ a, 0 ≤ c ∧ c ≤ 127) (c : Int) :
    c ∈ complementSet a ↔ (0 ≤ c ∧ c ≤ 127) ∧ c ∉ a := by
  rw [mem_complementSet ha]
  constructor
  · rintro (⟨h1, h2⟩ | ⟨h1, h2⟩)
    · exact absurd (hr c h1) h2
    · exact ⟨h2, h1⟩
  · rintro ⟨h1, h2⟩
    exact Or.inr ⟨h2, h1⟩

/-- **C15.** What complementing does in general: the symmetric difference with `0..127`; a character outside `0..127` (a
non-ASCII byte) that is in the set is in the "complement" too. -/
theorem C15_complement_general (a : List Int) (ha : Sorted a) (c : Int) :
    c ∈ complementSet a ↔ (c ∈ a ∧ ¬ (0 ≤ c ∧ c ≤ 127)) ∨ (c ∉ a ∧ (0 ≤ c ∧ c ≤ 127)) := mem_complementSet ha c

/-- **C15 (refuted outside ASCII).** The byte `\xFF` (`char` value -1) belongs to the complement of `{\xFF}`. -/
theorem C15_refuted_non_ascii : (-1 : Int) ∈ complementSet [-1] := by decide +kernel

/-- **C15.** The set of a range `a-b` is the characters between `a` and `b`. -/
theorem C15_range_mem (a b c : Int) : c ∈ admRange a b ↔ a ≤ c ∧ c ≤ b := mem_admRange a b c

/-- **C15.** All these operations keep the sets strictly increasing. -/
theorem C15_sorted (a b : List Int) (ha : Sorted a) (hb : Sorted b) :
    Sorted (mergeSets a b) ∧ Sorted (intersectSets a b) ∧ Sorted (complementSet a) :=
  ⟨sorted_mergeSets ha hb, sorted_intersectAux _ _ _ (Nat.le_refl _) ha hb, sorted_complementSet ha⟩

/-- **C15.** `can_admit` answers membership, on merged, intersected and complemented sets too. -/
theorem C15_can_admit (a b : List Int) (ha : Sorted a) (hb : Sorted b) (c : Int) :
    (canAdmit a c = true ↔ c ∈ a) ∧ canAdmit (mergeSets a b) c = (canAdmit a c || canAdmit b c) ∧
    canAdmit (intersectSets a b) c = (canAdmit a c && canAdmit b c) ∧
    (0 ≤ c → c ≤ 127 → canAdmit (complementSet a) c = !canAdmit a c) := by
  have h : ∀ l : List Int, canAdmit l c = true ↔ c ∈ l := by
    intro l
    simp [canAdmit, List.any_eq_true]
  refine ⟨h a, ?_, ?_, ?_⟩
  · rw [Bool.eq_iff_iff, Bool.or_eq_true, h, h, h]
    exact C15_merge_mem c a b
  · rw [Bool.eq_iff_iff, Bool.and_eq_true, h, h, h]
    exact C15_intersect_mem a b ha hb c
  · intro h0 h1
    rw [Bool.eq_iff_iff, Bool.not_eq_true', Bool.eq_false_iff, ne_eq, h, h]
    rw [C15_complement_general a ha c]
    constructor
    · rintro (⟨_, h2⟩ | ⟨h2, _⟩)
      · exact absurd ⟨h0, h1⟩ h2
      · exact h2
    · intro h2
      exact Or.inr ⟨h2, h0, h1⟩

/-- **C15.** A range is strictly increasing. -/
theorem C15_range_sorted (a b : Int) : Sorted (admRange a b) := sorted_admRange a b

example : canAdmit (mergeSets [97, 99] [98]) 98 = true ∧ canAdmit (complementSet [97]) 97 = false := by decide +kernel

-- without the ordering the intersection loses elements: the hypothesis is needed
example : intersectSets [98, 97] [97] = [] := by decide +kernel
example : Sorted [97, 98, 120] ∧ Sorted [98, 121] ∧ intersectSets [97, 98, 120] [98, 121] = [98] := by
  refine ⟨?_, ?_, ?_⟩
  · simp [Sorted]
  · simp [Sorted]
  · decide +kernel

end ERegex.Props

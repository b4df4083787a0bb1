import Verif.Model.AdmittedSet
import Verif.Spec.Front
set_option autoImplicit false
namespace ERegex
open Spec

/-! ## fuel-free equations -/

theorem mergeAux_acc : ∀ (f : Nat) (a b cur : List Ch), mergeAux f a b cur = cur ++ mergeAux f a b [] := by
  intro f
  induction f with
  | zero =>
    intro a b cur
    cases a <;> cases b <;> simp [mergeAux]
  | succ f ih =>
    intro a b cur
    cases a with
    | nil => simp [mergeAux]
    | cons x a =>
      cases b with
      | nil => simp [mergeAux]
      | cons y b =>
        simp only [mergeAux]
        split
        · rw [ih _ _ (cur ++ [x]), ih _ _ ([] ++ [x])]; simp
        · split
          · rw [ih _ _ (cur ++ [x]), ih _ _ ([] ++ [x])]; simp
          · rw [ih _ _ (cur ++ [y]), ih _ _ ([] ++ [y])]; simp

theorem intersectAux_acc : ∀ (f : Nat) (a b cur : List Ch), intersectAux f a b cur = cur ++ intersectAux f a b [] := by
  intro f
  induction f with
  | zero =>
    intro a b cur
    cases a <;> cases b <;> simp [intersectAux]
  | succ f ih =>
    intro a b cur
    cases a with
    | nil => simp [intersectAux]
    | cons x a =>
      cases b with
      | nil => simp [intersectAux]
      | cons y b =>
        simp only [intersectAux]
        split
        · rw [ih _ _ (cur ++ [x]), ih _ _ ([] ++ [x])]; simp
        · split
          · exact ih _ _ _
          · exact ih _ _ _

theorem differenceAux_acc : ∀ (f : Nat) (a b cur : List Ch), differenceAux f a b cur = cur ++ differenceAux f a b [] := by
  intro f
  induction f with
  | zero =>
    intro a b cur
    cases a <;> cases b <;> simp [differenceAux]
  | succ f ih =>
    intro a b cur
    cases a with
    | nil => simp [differenceAux]
    | cons x a =>
      cases b with
      | nil => simp [differenceAux]
      | cons y b =>
        simp only [differenceAux]
        split
        · exact ih _ _ _
        · split
          · rw [ih _ _ (cur ++ [x]), ih _ _ ([] ++ [x])]; simp
          · rw [ih _ _ (cur ++ [y]), ih _ _ ([] ++ [y])]; simp

/-! ## membership -/

theorem mem_mergeAux (c : Int) : ∀ (f : Nat) (a b : List Int), a.length + b.length ≤ f →
    (c ∈ mergeAux f a b [] ↔ c ∈ a ∨ c ∈ b) := by
  intro f
  induction f with
  | zero =>
    intro a b h
    have ha : a = [] := List.length_eq_zero_iff.1 (by omega)
    have hb : b = [] := List.length_eq_zero_iff.1 (by omega)
    simp [ha, hb, mergeAux]
  | succ f ih =>
    intro a b h
    cases a with
    | nil => simp [mergeAux]
    | cons x a =>
      cases b with
      | nil => simp [mergeAux]
      | cons y b =>
        simp only [List.length_cons] at h
        simp only [mergeAux]
        split
        · rename_i e
          subst e
          rw [mergeAux_acc, List.mem_append, ih _ _ (by omega)]
          simp only [List.nil_append, List.mem_cons, List.not_mem_nil, or_false]
          constructor
          · rintro (h | h | h) <;> simp [h]
          · rintro ((h | h) | h | h) <;> simp [h]
        · split
          · rw [mergeAux_acc, List.mem_append, ih _ _ (by simp; omega)]
            simp only [List.nil_append, List.mem_cons, List.not_mem_nil, or_false]
            constructor
            · rintro (h | h | h | h) <;> simp [h]
            · rintro ((h | h) | h | h) <;> simp [h]
          · rw [mergeAux_acc, List.mem_append, ih _ _ (by simp; omega)]
            simp only [List.nil_append, List.mem_cons, List.not_mem_nil, or_false]
            constructor
            · rintro (h | (h | h) | h) <;> simp [h]
            · rintro ((h | h) | h | h) <;> simp [h]

theorem mem_mergeSets (c : Int) (a b : List Int) : c ∈ mergeSets a b ↔ c ∈ a ∨ c ∈ b :=
  mem_mergeAux c _ a b (Nat.le_refl _)

theorem sorted_cons_lt {x : Int} {a : List Int} (h : Sorted (x :: a)) : ∀ c ∈ a, x < c :=
  (List.pairwise_cons.1 h).1

theorem sorted_tail {x : Int} {a : List Int} (h : Sorted (x :: a)) : Sorted a := (List.pairwise_cons.1 h).2

theorem mem_intersectAux (c : Int) : ∀ (f : Nat) (a b : List Int), a.length + b.length ≤ f → Sorted a → Sorted b →
    (c ∈ intersectAux f a b [] ↔ c ∈ a ∧ c ∈ b) := by
  intro f
  induction f with
  | zero =>
    intro a b h _ _
    have ha : a = [] := List.length_eq_zero_iff.1 (by omega)
    simp [ha, intersectAux]
  | succ f ih =>
    intro a b h sa sb
    cases a with
    | nil => simp [intersectAux]
    | cons x a =>
      cases b with
      | nil => simp [intersectAux]
      | cons y b =>
        have la := sorted_cons_lt sa
        have lb := sorted_cons_lt sb
        simp only [List.length_cons] at h
        simp only [intersectAux]
        split
        · rename_i e
          subst e
          rw [intersectAux_acc, List.mem_append, ih _ _ (by omega) (sorted_tail sa) (sorted_tail sb)]
          simp only [List.nil_append, List.mem_cons, List.not_mem_nil, or_false]
          constructor
          · rintro (h | ⟨h1, h2⟩) <;> simp_all
          · rintro ⟨h1 | h1, h2 | h2⟩ <;> simp_all
        · rename_i hne
          split
          · rename_i hlt
            rw [ih _ _ (by simp; omega) (sorted_tail sa) sb]
            simp only [List.mem_cons]
            constructor
            · rintro ⟨h1, h2⟩; exact ⟨Or.inr h1, h2⟩
            · rintro ⟨h1 | h1, h2⟩
              · exfalso
                subst h1
                rcases h2 with h2 | h2
                · omega
                · have := lb c h2; omega
              · exact ⟨h1, h2⟩
          · rename_i hlt
            rw [ih _ _ (by simp; omega) sa (sorted_tail sb)]
            simp only [List.mem_cons]
            constructor
            · rintro ⟨h1, h2⟩; exact ⟨h1, Or.inr h2⟩
            · rintro ⟨h1, h2 | h2⟩
              · exfalso
                subst h2
                rcases h1 with h1 | h1
                · omega
                · have := la c h1; omega
              · exact ⟨h1, h2⟩

theorem mem_differenceAux (c : Int) : ∀ (f : Nat) (a b : List Int), a.length + b.length ≤ f → Sorted a → Sorted b →
    (c ∈ differenceAux f a b [] ↔ (c ∈ a ∧ c ∉ b) ∨ (c ∉ a ∧ c ∈ b)) := by
  intro f
  induction f with
  | zero =>
    intro a b h _ _
    have ha : a = [] := List.length_eq_zero_iff.1 (by omega)
    have hb : b = [] := List.length_eq_zero_iff.1 (by omega)
    simp [ha, hb, differenceAux]
  | succ f ih =>
    intro a b h sa sb
    cases a with
    | nil => simp [differenceAux]
    | cons x a =>
      cases b with
      | nil => simp [differenceAux]
      | cons y b =>
        have la := sorted_cons_lt sa
        have lb := sorted_cons_lt sb
        simp only [List.length_cons] at h
        simp only [differenceAux]
        split
        · rename_i e
          subst e
          rw [ih _ _ (by omega) (sorted_tail sa) (sorted_tail sb)]
          by_cases hx : c = x
          · subst hx
            have h1 : c ∉ a := fun m => by have := la c m; omega
            have h2 : c ∉ b := fun m => by have := lb c m; omega
            simp [h1, h2]
          · simp [hx]
        · rename_i hne
          split
          · rename_i hlt
            rw [differenceAux_acc, List.mem_append, ih _ _ (by simp; omega) (sorted_tail sa) sb]
            by_cases hx : c = x
            · subst hx
              have h2 : c ∉ b := fun m => by have := lb c m; omega
              simp [h2, hne]
            · simp [hx]
          · rename_i hlt
            rw [differenceAux_acc, List.mem_append, ih _ _ (by simp; omega) sa (sorted_tail sb)]
            by_cases hy : c = y
            · subst hy
              have h1 : c ∉ a := fun m => by have := la c m; omega
              have h3 : ¬ c = x := fun e => hne e.symm
              simp [h1, h3]
            · simp [hy]

/-! ## order -/

theorem sorted_append_singleton {a b : List Int} {x : Int} (hb : Sorted b) (h : ∀ c ∈ b, x < c) : Sorted (x :: b) :=
  List.pairwise_cons.2 ⟨h, hb⟩

theorem sorted_mergeAux : ∀ (f : Nat) (a b : List Int), a.length + b.length ≤ f → Sorted a → Sorted b →
    Sorted (mergeAux f a b []) := by
  intro f
  induction f with
  | zero =>
    intro a b h _ _
    have ha : a = [] := List.length_eq_zero_iff.1 (by omega)
    have hb : b = [] := List.length_eq_zero_iff.1 (by omega)
    simp [ha, hb, mergeAux, Sorted]
  | succ f ih =>
    intro a b h sa sb
    cases a with
    | nil => simpa [mergeAux] using sb
    | cons x a =>
      cases b with
      | nil => simpa [mergeAux] using sa
      | cons y b =>
        have la := sorted_cons_lt sa
        have lb := sorted_cons_lt sb
        simp only [List.length_cons] at h
        simp only [mergeAux]
        split
        · rename_i e
          subst e
          rw [mergeAux_acc, List.nil_append, List.singleton_append]
          refine sorted_append_singleton (a := []) (ih _ _ (by omega) (sorted_tail sa) (sorted_tail sb)) ?_
          intro c hc
          rw [mem_mergeAux c _ _ _ (by omega)] at hc
          rcases hc with hc | hc
          · exact la c hc
          · exact lb c hc
        · split
          · rename_i hlt
            rw [mergeAux_acc, List.nil_append, List.singleton_append]
            refine sorted_append_singleton (a := []) (ih _ _ (by simp; omega) (sorted_tail sa) sb) ?_
            intro c hc
            rw [mem_mergeAux c _ _ _ (by simp; omega)] at hc
            rcases hc with hc | hc
            · exact la c hc
            · simp only [List.mem_cons] at hc
              rcases hc with rfl | hc
              · exact hlt
              · have := lb c hc; omega
          · rename_i hne hlt
            rw [mergeAux_acc, List.nil_append, List.singleton_append]
            refine sorted_append_singleton (a := []) (ih _ _ (by simp; omega) sa (sorted_tail sb)) ?_
            intro c hc
            rw [mem_mergeAux c _ _ _ (by simp; omega)] at hc
            rcases hc with hc | hc
            · simp only [List.mem_cons] at hc
              rcases hc with rfl | hc
              · omega
              · have := la c hc; omega
            · exact lb c hc

theorem sorted_intersectAux : ∀ (f : Nat) (a b : List Int), a.length + b.length ≤ f → Sorted a → Sorted b →
    Sorted (intersectAux f a b []) := by
  intro f
  induction f with
  | zero =>
    intro a b h _ _
    have ha : a = [] := List.length_eq_zero_iff.1 (by omega)
    simp [ha, intersectAux, Sorted]
  | succ f ih =>
    intro a b h sa sb
    cases a with
    | nil => simp [intersectAux, Sorted]
    | cons x a =>
      cases b with
      | nil => simp [intersectAux, Sorted]
      | cons y b =>
        have la := sorted_cons_lt sa
        simp only [List.length_cons] at h
        simp only [intersectAux]
        split
        · rename_i e
          subst e
          rw [intersectAux_acc, List.nil_append, List.singleton_append]
          refine sorted_append_singleton (a := []) (ih _ _ (by omega) (sorted_tail sa) (sorted_tail sb)) ?_
          intro c hc
          rw [mem_intersectAux c _ _ _ (by omega) (sorted_tail sa) (sorted_tail sb)] at hc
          exact la c hc.1
        · split
          · exact ih _ _ (by simp; omega) (sorted_tail sa) sb
          · exact ih _ _ (by simp; omega) sa (sorted_tail sb)

theorem sorted_differenceAux : ∀ (f : Nat) (a b : List Int), a.length + b.length ≤ f → Sorted a → Sorted b →
    Sorted (differenceAux f a b []) := by
  intro f
  induction f with
  | zero =>
    intro a b h _ _
    have ha : a = [] := List.length_eq_zero_iff.1 (by omega)
    have hb : b = [] := List.length_eq_zero_iff.1 (by omega)
    simp [ha, hb, differenceAux, Sorted]
  | succ f ih =>
    intro a b h sa sb
    cases a with
    | nil => simpa [differenceAux] using sb
    | cons x a =>
      cases b with
      | nil => simpa [differenceAux] using sa
      | cons y b =>
        have la := sorted_cons_lt sa
        have lb := sorted_cons_lt sb
        simp only [List.length_cons] at h
        simp only [differenceAux]
        split
        · exact ih _ _ (by omega) (sorted_tail sa) (sorted_tail sb)
        · split
          · rename_i hlt
            rw [differenceAux_acc, List.nil_append, List.singleton_append]
            refine sorted_append_singleton (a := []) (ih _ _ (by simp; omega) (sorted_tail sa) sb) ?_
            intro c hc
            rw [mem_differenceAux c _ _ _ (by simp; omega) (sorted_tail sa) sb] at hc
            rcases hc with ⟨hc, _⟩ | ⟨_, hc⟩
            · exact la c hc
            · simp only [List.mem_cons] at hc
              rcases hc with rfl | hc
              · exact hlt
              · have := lb c hc; omega
          · rename_i hne hlt
            rw [differenceAux_acc, List.nil_append, List.singleton_append]
            refine sorted_append_singleton (a := []) (ih _ _ (by simp; omega) sa (sorted_tail sb)) ?_
            intro c hc
            rw [mem_differenceAux c _ _ _ (by simp; omega) sa (sorted_tail sb)] at hc
            rcases hc with ⟨hc, _⟩ | ⟨_, hc⟩
            · simp only [List.mem_cons] at hc
              rcases hc with rfl | hc
              · omega
              · have := la c hc; omega
            · exact lb c hc

/-! ## ranges -/

theorem mem_admRange (a b c : Int) : c ∈ admRange a b ↔ a ≤ c ∧ c ≤ b := by
  unfold admRange
  simp only [List.mem_map, List.mem_range]
  constructor
  · rintro ⟨i, hi, rfl⟩; omega
  · rintro ⟨h1, h2⟩; exact ⟨(c - a).toNat, by omega, by omega⟩

theorem sorted_admRange (a b : Int) : Sorted (admRange a b) := by
  unfold admRange Sorted
  rw [List.pairwise_map]
  refine List.Pairwise.imp ?_ List.pairwise_lt_range
  intro i j h
  omega

theorem sorted_mergeSets {a b : List Int} (ha : Sorted a) (hb : Sorted b) : Sorted (mergeSets a b) :=
  sorted_mergeAux _ a b (Nat.le_refl _) ha hb

theorem mem_intersectSets {a b : List Int} (ha : Sorted a) (hb : Sorted b) (c : Int) :
    c ∈ intersectSets a b ↔ c ∈ a ∧ c ∈ b := mem_intersectAux c _ a b (Nat.le_refl _) ha hb

theorem mem_complementSet {a : List Int} (ha : Sorted a) (c : Int) :
    c ∈ complementSet a ↔ (c ∈ a ∧ ¬ (0 ≤ c ∧ c ≤ 127)) ∨ (c ∉ a ∧ 0 ≤ c ∧ c ≤ 127) := by
  unfold complementSet differenceSets
  rw [mem_differenceAux c _ _ _ (Nat.le_refl _) ha (sorted_admRange 0 127), mem_admRange]

theorem sorted_complementSet {a : List Int} (ha : Sorted a) : Sorted (complementSet a) :=
  sorted_differenceAux _ _ _ (Nat.le_refl _) ha (sorted_admRange 0 127)

theorem mem_extractAdm (c : Int) : ∀ ss : List (List Int), c ∈ extractAdm ss ↔ ∃ s ∈ ss, c ∈ s := by
  intro ss
  induction ss with
  | nil => simp [extractAdm]
  | cons s ss ih => simp [extractAdm, mem_mergeSets, ih]

theorem sorted_extractAdm : ∀ ss : List (List Int), (∀ s ∈ ss, Sorted s) → Sorted (extractAdm ss) := by
  intro ss
  induction ss with
  | nil => intro _; simp [extractAdm, Sorted]
  | cons s ss ih =>
    intro h
    exact sorted_mergeSets (h s (by simp)) (ih (fun x hx => h x (by simp [hx])))

/-- The merge keeps the second list's members even when unsorted: an intersection only ever contains common members. -/
theorem intersect_subset (c : Int) : ∀ (f : Nat) (a b : List Int), c ∈ intersectAux f a b [] → c ∈ a ∧ c ∈ b := by
  intro f
  induction f with
  | zero => intro a b h; cases a <;> cases b <;> simp [intersectAux] at h
  | succ f ih =>
    intro a b h
    cases a with
    | nil => simp [intersectAux] at h
    | cons x a =>
      cases b with
      | nil => simp [intersectAux] at h
      | cons y b =>
        simp only [intersectAux] at h
        split at h
        · rename_i e
          subst e
          rw [intersectAux_acc, List.mem_append] at h
          rcases h with h | h
          · simp at h; simp [h]
          · have := ih _ _ h; simp [this.1, this.2]
        · split at h
          · have := ih _ _ h; exact ⟨by simp [this.1], this.2⟩
          · have := ih _ _ h; exact ⟨this.1, by simp [this.2]⟩

end ERegex

import Verif.Proofs.GroupOrder
import Verif.Proofs.Param
import Verif.Model.Result
import Verif.Conformance
/-!
# C09–C13 : number of groups, capture slots, the optimizer
-/
set_option autoImplicit false
namespace ERegex.Props
open ERegex ERegex.Spec

theorem optimize_rounds {t r : Node} (h : optimize t = some r) : ∃ k, r = rounds k t := optFix_rounds _ _ _ h

theorem compile_split {p : List Int} {t : Node} (h : compile p = some t) : ∃ b, build p = some b ∧ optimize b = some t := by
  unfold compile at h
  exact Option.bind_eq_some_iff.1 h

theorem compile_slots {p : List Int} {t : Node} (h : compile p = some t) : ∃ b, build p = some b ∧ slots t = slots b := by
  obtain ⟨b, h1, h2⟩ := compile_split h
  obtain ⟨k, rfl⟩ := optimize_rounds h2
  exact ⟨b, h1, rounds_slots k b⟩

/-! ## C09 -/

/-- **C09.** For every pattern that compiles, `groups` is the number of capturing parentheses written in the pattern: the
`(` tokens outside `[…]` and `{…}` that do not begin `(?:`. -/
theorem C09_groups_count (p : List Int) (t : Node) (h : compile p = some t) :
    ∃ ts, tokenize p = some ts ∧ groupsOf t = captures .normal ts := by
  obtain ⟨b, h1, h2⟩ := compile_slots h
  obtain ⟨ts, h3, h4, _⟩ := build_built h1
  exact ⟨ts, h3, by rw [groups_slots, h2, h4]⟩

/-- **C09.** The heuristics do not change the number of groups. -/
theorem C09_groups_optimized (t r : Node) (h : optimize t = some r) : groupsOf r = groupsOf t := by
  obtain ⟨k, rfl⟩ := optimize_rounds h
  rw [groups_slots, groups_slots, rounds_slots]

/-- **C09.** Every result of a match (also after any number of `next()`) has that many capture slots. -/
theorem C09_result_slots (cx : Ctx) (t : Node) (fuel : Nat) (st : St) (h : construct cx t fuel = .ok st) :
    st.groups.length = groupsOf t := by
  have hnext : ∀ (f : Nat) (a b : St), a.groups.length = groupsOf t → nextLoop cx (run cx t []) f a = .ok b →
      b.groups.length = groupsOf t := by
    intro f
    induction f with
    | zero =>
      intro a b ha hb
      simp only [nextLoop] at hb
      split at hb
      · simp at hb
      · simp at hb; subst hb; exact ha
    | succ f ih =>
      intro a b ha hb
      simp only [nextLoop] at hb
      split at hb
      · split at hb
        · simp at hb
        · rename_i a' ha'
          have hl := run_groups_length cx t a a' ha'
          split at hb
          · simp at hb; subst hb; rw [hl, ha]
          · exact ih _ _ (by simp [hl, ha]) hb
      · simp at hb; subst hb; exact ha
  unfold construct at h
  split at h
  · simp at h
  · rename_i s hs
    have hl := run_groups_length cx t _ _ hs
    split at h
    · simp at h; subst h; rw [hl]; simp [initSt]
    · exact hnext _ _ _ (by simp) h

-- three groups, one of them nested, a non-capturing group, a class and braces with parentheses-like content
example : ∃ t, compile (str "(a)(?:b(c)){2}[(](d)") = some t ∧ groupsOf t = 3 := by
  refine ⟨_, rfl, ?_⟩; decide +kernel

/-! ## C10 -/

/-- **C10.** For every pattern that compiles, every capture slot that a match can write is below `groups`, the size of the
result's array. -/
theorem C10_slots_in_array (p : List Int) (t : Node) (h : compile p = some t) : ∀ s ∈ slots t, s < groupsOf t := by
  obtain ⟨b, h1, h2⟩ := compile_slots h
  obtain ⟨ts, _, _, h5⟩ := build_built h1
  rw [groups_slots, h2]
  exact h5

/-- **C10.** Captures are only written inside the array: with the array made larger by any `extra` cells the match of a
compiled pattern does exactly the same (the same result, undefined behaviour in exactly the same cases) and leaves the
extra cells alone. -/
theorem C10_no_write_outside (p : List Int) (t : Node) (h : compile p = some t) (cx : Ctx) (st : St)
    (hg : st.groups.length = groupsOf t) (extra : List (Option (Int × Int))) :
    run cx t [] { st with groups := st.groups ++ extra } =
      (run cx t [] st).map (fun st' => { st' with groups := st'.groups ++ extra }) :=
  run_extend cx t st extra (by rw [hg]; exact C10_slots_in_array p t h)

/-- **C10.** Slots that no group of the tree owns are never written (all trees, all queries, all states). -/
theorem C10_frame (cx : Ctx) (t : Node) (st st' : St) (h : run cx t [] st = some st') (j : Nat) (hj : j ∉ slots t) :
    st'.groups[j]? = st.groups[j]? := run_groups_frame cx t st st' h j hj

-- a tree that no pattern produces does write outside (so the statement is not trivially true of all trees)
example : run (Conformance.lit "a") (.group (.exact [97] [97]) 1 []) []
    { start := 0, pos := 0, groups := [none], accepted := true } = none := by decide +kernel
example : ∃ t, compile (str "(a)(b)") = some t ∧ slots t = [0, 1] := ⟨_, rfl, by decide +kernel⟩

/-! ## C11 -/

/-- **C11 (partial).** If the pattern has no character class, no `(?:`, no nested groups, and `|` only inside groups, then the
groups get the slots `0, 1, 2, …` in the order in which they are written.  Missing: patterns with classes, non-capturing
groups, nested groups or top-level alternatives, for which the claim is false of the code (see the refutations). -/
theorem C11_slot_order_partial (p : List Int) (ts : List (List Int)) (t : Node) (h : compile p = some t)
    (ht : tokenize p = some ts) (hclass : [91] ∉ ts)
    (hnon : ∀ a b : List (List Int), ts ≠ a ++ [40] :: [63] :: [58] :: b)
    (hnest : ∀ a b c : List (List Int), ts = a ++ [40] :: (b ++ [40] :: c) → [41] ∈ b)
    (hbar : ∀ a b : List (List Int), ts = a ++ [124] :: b → 1 ≤ depth 40 41 a) :
    slots t = List.range (captures .normal ts) := by
  obtain ⟨b, h1, h2⟩ := compile_slots h
  obtain ⟨ts', h3, h4, _⟩ := build_built h1
  rw [ht] at h3; cases h3
  rw [h2, build_flat h1 ht ⟨hclass, hnon, hnest⟩ hbar, h4]

/-- The slots of a compiled pattern. -/
def slotsOf (p : String) : Option (List Nat) := (compile (str p)).map slots

-- non-vacuity: `(a)b(c|d)\d(e)*`
example : slotsOf "(a)b(c|d)\\d(e)*" = some [0, 1, 2] := by decide +kernel
/-- The hypotheses of `C11_slot_order_partial` hold of `(a)b(c|d)`. -/
example : ∃ ts, tokenize (str "(a)b(c|d)") = some ts ∧ [91] ∉ ts ∧ captures .normal ts = 2 := by
  refine ⟨_, rfl, ?_⟩; decide +kernel

/-- **C11 (refuted).** After a character class the group index restarts: both groups of `(a)[b](c)` use slot 0, so
`result[1]` is the text of the second group and `result[2]` stays empty. -/
theorem C11_refuted_class :
    slotsOf "(a)[b](c)" = some [0, 0] ∧ Conformance.m "(a)[b](c)" "abc" = some [some "abc", some "c", some ""] := by
  decide +kernel

/-- **C11 (refuted).** A group after a nested group shares the nested group's slot. -/
theorem C11_refuted_nested :
    slotsOf "(a(b))(c)" = some [0, 1, 1] ∧
    Conformance.m "(a(b))(c)" "abc" = some [some "abc", some "ab", some "c", some ""] := by
  decide +kernel

/-- **C11 (refuted).** A group-free alternative restarts the numbering. -/
theorem C11_refuted_branch : slotsOf "(a)|b|(c)" = some [0, 0] := by decide +kernel

/-- **C11 (refuted).** Two groups in a row followed by an alternative: the alternative's group shares slot 1. -/
theorem C11_refuted_branch2 : slotsOf "(a)(b)|(c)" = some [0, 1, 1] := by decide +kernel

/-- **C11 (refuted).** A non-capturing group without captures restarts the numbering. -/
theorem C11_refuted_noncapture :
    slotsOf "(a)(?:b)(c)" = some [0, 0] ∧
    Conformance.m "(a)(?:b)(c)" "abc" = some [some "abc", some "c", some ""] := by
  decide +kernel

/-! ## C12 -/

/-- **C12.** The optimizer stops on every tree, within a number of rounds bounded by the size of the tree, … -/
theorem C12_terminates (t : Node) : ∃ r, optimize t = some r := optimize_some t

/-- **C12.** … the result is obtained by applying the heuristics some number of times (`rounds k t` is `k` applications), and applying them again changes
nothing. -/
theorem C12_fixpoint (t r : Node) (h : optimize t = some r) :
    (∃ k, r = rounds k t) ∧ opt r [] = r := ⟨optimize_rounds h, optFix_stable _ _ _ h⟩

/-- **C12.** The bound on the number of rounds in the model does not matter: any larger bound gives the same tree (so the
unbounded template recursion of the library ends with this tree). -/
theorem C12_fuel_irrelevant (t r : Node) (h : optimize t = some r) (f : Nat) (hf : nodeSize t + 2 ≤ f) :
    optFix f t = some r := optFix_mono _ _ _ _ hf h

/-- **C12.** Optimizing twice is optimizing once. -/
theorem C12_idempotent (t r : Node) (h : optimize t = some r) : optimize r = some r := by
  have := optFix_stable _ _ _ h
  simp [optimize, optFix, this]

-- a tree that takes more than one round: the heuristics change `\d+a` and `(a*)b` and then stop
example : ∃ t r, build (str "(a*)b") = some t ∧ optimize t = some r ∧ r ≠ t := by
  refine ⟨_, _, rfl, rfl, ?_⟩; decide +kernel

/-! ## C13 -/

/-- **C13.** The heuristics keep the language: the tree and the optimized tree match the same pieces `[i, j)` of every query,
read as regular expressions. -/
theorem C13_same_language (t r : Node) (h : optimize t = some r) (q : List Int) (i j : Nat) :
    Den q (toRx r) i j ↔ Den q (toRx t) i j := by
  obtain ⟨k, rfl⟩ := optimize_rounds h
  exact rounds_same k t q i j

/-- **C13.** The heuristics keep every group, its slot, and the order of the groups. -/
theorem C13_same_slots (t r : Node) (h : optimize t = some r) : slots r = slots t ∧ groupsOf r = groupsOf t :=
  ⟨by obtain ⟨k, rfl⟩ := optimize_rounds h; exact rounds_slots k t, C09_groups_optimized t r h⟩

end ERegex.Props

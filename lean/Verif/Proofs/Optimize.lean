import Verif.Model.Optimize
import Verif.Spec.Denote
set_option autoImplicit false
namespace ERegex
open Spec

/-! ## termination of the optimizer -/

mutual
/-- Displays are the plain ones. -/
def Std : Node → Prop
  | .exact s d => d = s
  | .range a b d => d = [91, a, 45, b, 93]
  | .space | .word | .any | .bos | .eol => True
  | .negated m => Std m
  | .simple m cs | .repeated m _ cs | .group m _ cs | .greedy m _ _ cs | .lazy m _ _ cs | .possessive m _ _ cs =>
    Std m ∧ Stds cs
  | .alt cs => Stds cs
def Stds : List Node → Prop
  | [] => True
  | c :: cs => Std c ∧ Stds cs
end

mutual
theorem std_opt : ∀ (t : Node) (inj : List (List Int)), Std (opt t inj)
  | .exact .., _ => by simp [opt, Std]
  | .range .., _ => by simp [opt, Std]
  | .space, _ => by simp [opt, Std]
  | .word, _ => by simp [opt, Std]
  | .any, _ => by simp [opt, Std]
  | .bos, _ => by simp [opt, Std]
  | .eol, _ => by simp [opt, Std]
  | .negated m, _ => by simp only [opt, Std]; exact std_opt m []
  | .simple m [], inj => by simp only [opt]; exact std_opt m inj
  | .simple m (c :: cs), inj => by
    simp only [opt, Std, Stds]; exact ⟨std_opt m inj, std_opt c [], stds_opts cs⟩
  | .alt [], _ => by simp [opt, Std, Stds]
  | .alt [c], inj => by simp only [opt]; exact std_opt c inj
  | .alt (c :: d :: cs), _ => by
    simp only [opt, Std, Stds]; exact ⟨std_opt c [], std_opt d [], stds_opts cs⟩
  | .greedy m lo hi cs, inj => by
    simp only [opt]; split <;> (simp only [Std]; exact ⟨std_opt m [], stds_opts cs⟩)
  | .lazy m lo hi cs, inj => by
    simp only [opt]; split <;> (simp only [Std]; exact ⟨std_opt m [], stds_opts cs⟩)
  | .possessive m lo hi cs, _ => by simp only [opt, Std]; exact ⟨std_opt m [], stds_opts cs⟩
  | .repeated m n cs, _ => by simp only [opt, Std]; exact ⟨std_opt m [], stds_opts cs⟩
  | .group m i cs, inj => by simp only [opt, Std]; exact ⟨std_opt m _, stds_opts cs⟩
theorem stds_opts : ∀ (cs : List Node), Stds (opts cs)
  | [] => by simp [opts, Stds]
  | c :: cs => by simp only [opts, Stds]; exact ⟨std_opt c [], stds_opts cs⟩
end

mutual
theorem size_opt : ∀ (t : Node) (inj : List (List Int)),
    nodeSize (opt t inj) ≤ nodeSize t ∧ (Std t → opt t inj = t ∨ nodeSize (opt t inj) < nodeSize t)
  | .exact s d, _ => by simp only [opt, nodeSize, Std]; exact ⟨Nat.le_refl _, fun h => by rw [h]; simp⟩
  | .range a b d, _ => by simp only [opt, nodeSize, Std]; exact ⟨Nat.le_refl _, fun h => by rw [h]; simp⟩
  | .space, _ => by simp [opt]
  | .word, _ => by simp [opt]
  | .any, _ => by simp [opt]
  | .bos, _ => by simp [opt]
  | .eol, _ => by simp [opt]
  | .negated m, _ => by
    have h := size_opt m []
    simp only [opt, nodeSize, Std]
    refine ⟨by omega, fun hs => ?_⟩
    rcases h.2 hs with e | e
    · left; rw [e]
    · right; omega
  | .simple m [], inj => by
    have h := size_opt m inj
    simp only [opt, nodeSize, nodeSizes]
    exact ⟨by omega, fun _ => Or.inr (by omega)⟩
  | .simple m (c :: cs), inj => by
    have h := size_opt m inj
    have h1 := size_opt c []
    have h2 := size_opts cs
    simp only [opt, nodeSize, nodeSizes, Std, Stds]
    refine ⟨by omega, fun hs => ?_⟩
    rcases h.2 hs.1 with e | e <;> rcases h1.2 hs.2.1 with e1 | e1 <;> rcases h2.2 hs.2.2 with e2 | e2
    · left; rw [e, e1, e2]
    all_goals right; omega
  | .alt [], _ => by simp [opt]
  | .alt [c], inj => by
    have h := size_opt c inj
    simp only [opt, nodeSize, nodeSizes]
    exact ⟨by omega, fun _ => Or.inr (by omega)⟩
  | .alt (c :: d :: cs), _ => by
    have h := size_opt c []
    have h1 := size_opt d []
    have h2 := size_opts cs
    simp only [opt, nodeSize, nodeSizes, Std, Stds]
    refine ⟨by omega, fun hs => ?_⟩
    rcases h.2 hs.1 with e | e <;> rcases h1.2 hs.2.1 with e1 | e1 <;> rcases h2.2 hs.2.2 with e2 | e2
    · left; rw [e, e1, e2]
    all_goals right; omega
  | .greedy m lo hi cs, inj => by
    have h := size_opt m []
    have h2 := size_opts cs
    simp only [opt]
    split
    · simp only [nodeSize]; exact ⟨by omega, fun _ => Or.inr (by omega)⟩
    · simp only [nodeSize, Std]
      refine ⟨by omega, fun hs => ?_⟩
      rcases h.2 hs.1 with e | e <;> rcases h2.2 hs.2 with e2 | e2
      · left; rw [e, e2]
      all_goals right; omega
  | .lazy m lo hi cs, inj => by
    have h := size_opt m []
    have h2 := size_opts cs
    simp only [opt]
    split
    · simp only [nodeSize]; exact ⟨by omega, fun _ => Or.inr (by omega)⟩
    · simp only [nodeSize, Std]
      refine ⟨by omega, fun hs => ?_⟩
      rcases h.2 hs.1 with e | e <;> rcases h2.2 hs.2 with e2 | e2
      · left; rw [e, e2]
      all_goals right; omega
  | .possessive m lo hi cs, _ => by
    have h := size_opt m []
    have h2 := size_opts cs
    simp only [opt, nodeSize, Std]
    refine ⟨by omega, fun hs => ?_⟩
    rcases h.2 hs.1 with e | e <;> rcases h2.2 hs.2 with e2 | e2
    · left; rw [e, e2]
    all_goals right; omega
  | .repeated m n cs, _ => by
    have h := size_opt m []
    have h2 := size_opts cs
    simp only [opt, nodeSize, Std]
    refine ⟨by omega, fun hs => ?_⟩
    rcases h.2 hs.1 with e | e <;> rcases h2.2 hs.2 with e2 | e2
    · left; rw [e, e2]
    all_goals right; omega
  | .group m i cs, inj => by
    have h := size_opt m (admSets cs ++ inj)
    have h2 := size_opts cs
    simp only [opt, nodeSize, Std]
    refine ⟨by omega, fun hs => ?_⟩
    rcases h.2 hs.1 with e | e <;> rcases h2.2 hs.2 with e2 | e2
    · left; rw [e, e2]
    all_goals right; omega
theorem size_opts : ∀ (cs : List Node),
    nodeSizes (opts cs) ≤ nodeSizes cs ∧ (Stds cs → opts cs = cs ∨ nodeSizes (opts cs) < nodeSizes cs)
  | [] => by simp [opts]
  | c :: cs => by
    have h := size_opt c []
    have h2 := size_opts cs
    simp only [opts, nodeSizes, Stds]
    refine ⟨by omega, fun hs => ?_⟩
    rcases h.2 hs.1 with e | e <;> rcases h2.2 hs.2 with e2 | e2
    · left; rw [e, e2]
    all_goals right; omega
end

theorem optFix_std : ∀ (f : Nat) (t : Node), Std t → nodeSize t < f → ∃ r, optFix f t = some r := by
  intro f
  induction f with
  | zero => intro t _ h; omega
  | succ f ih =>
    intro t hs h
    simp only [optFix]
    split
    · exact ⟨t, rfl⟩
    · rename_i hne
      rcases (size_opt t []).2 hs with e | e
      · exact absurd e hne
      · exact ih _ (std_opt t []) (by omega)

theorem optFix_stable : ∀ (f : Nat) (t r : Node), optFix f t = some r → opt r [] = r := by
  intro f
  induction f with
  | zero => intro t r h; simp [optFix] at h
  | succ f ih =>
    intro t r h
    simp only [optFix] at h
    split at h
    · rename_i e; simp at h; rw [← h]; exact e
    · exact ih _ _ h

/-- `k` rounds of the optimizer. -/
def rounds : Nat → Node → Node
  | 0, t => t
  | k + 1, t => rounds k (opt t [])

theorem optFix_rounds : ∀ (f : Nat) (t r : Node), optFix f t = some r → ∃ k, r = rounds k t := by
  intro f
  induction f with
  | zero => intro t r h; simp [optFix] at h
  | succ f ih =>
    intro t r h
    simp only [optFix] at h
    split at h
    · simp at h; exact ⟨0, by simp [rounds, h]⟩
    · obtain ⟨k, hk⟩ := ih _ _ h
      exact ⟨k + 1, hk⟩

/-- More fuel than needed gives the same tree. -/
theorem optFix_mono : ∀ (f g : Nat) (t r : Node), f ≤ g → optFix f t = some r → optFix g t = some r := by
  intro f
  induction f with
  | zero => intro g t r _ h; simp [optFix] at h
  | succ f ih =>
    intro g t r hg h
    obtain ⟨g, rfl⟩ : ∃ k, g = k + 1 := ⟨g - 1, by omega⟩
    simp only [optFix] at h ⊢
    split at h
    · rename_i e; rw [if_pos e]; exact h
    · rename_i e; rw [if_neg e]; exact ih _ _ _ (by omega) h

theorem optimize_some (t : Node) : ∃ r, optimize t = some r := by
  unfold optimize
  show ∃ r, optFix ((nodeSize t + 1) + 1) t = some r
  simp only [optFix]
  split
  · exact ⟨t, rfl⟩
  · exact optFix_std (nodeSize t + 1) _ (std_opt t []) (by have := (size_opt t []).1; omega)

/-! ## what the optimizer keeps -/

mutual
/-- Capture slots written by a tree, in order of occurrence. -/
def slots : Node → List Nat
  | .exact .. | .range .. | .space | .word | .any | .bos | .eol => []
  | .negated m => slots m
  | .simple m cs | .repeated m _ cs | .greedy m _ _ cs | .lazy m _ _ cs | .possessive m _ _ cs =>
    slots m ++ slotss cs
  | .alt cs => slotss cs
  | .group m i cs => i :: (slots m ++ slotss cs)
/-- Slots of a children pack. -/
def slotss : List Node → List Nat
  | [] => []
  | c :: cs => slots c ++ slotss cs
end

mutual
theorem slots_opt : ∀ (t : Node) (inj : List (List Int)), slots (opt t inj) = slots t
  | .exact .., _ => by simp [opt, slots]
  | .range .., _ => by simp [opt, slots]
  | .space, _ => by simp [opt]
  | .word, _ => by simp [opt]
  | .any, _ => by simp [opt]
  | .bos, _ => by simp [opt]
  | .eol, _ => by simp [opt]
  | .negated m, _ => by simp only [opt, slots]; exact slots_opt m []
  | .simple m [], inj => by simp only [opt, slots, slotss, List.append_nil]; exact slots_opt m inj
  | .simple m (c :: cs), inj => by
    simp only [opt, slots, slotss, slots_opt m inj, slots_opt c [], slotss_opts cs]
  | .alt [], _ => by simp [opt]
  | .alt [c], inj => by simp only [opt, slots, slotss, List.append_nil]; exact slots_opt c inj
  | .alt (c :: d :: cs), _ => by simp only [opt, slots, slotss, slots_opt c [], slots_opt d [], slotss_opts cs]
  | .greedy m lo hi cs, inj => by
    simp only [opt]; split <;> simp only [slots, slots_opt m [], slotss_opts cs]
  | .lazy m lo hi cs, inj => by
    simp only [opt]; split <;> simp only [slots, slots_opt m [], slotss_opts cs]
  | .possessive m lo hi cs, _ => by simp only [opt, slots, slots_opt m [], slotss_opts cs]
  | .repeated m n cs, _ => by simp only [opt, slots, slots_opt m [], slotss_opts cs]
  | .group m i cs, inj => by simp only [opt, slots, slots_opt m (admSets cs ++ inj), slotss_opts cs]
theorem slotss_opts : ∀ (cs : List Node), slotss (opts cs) = slotss cs
  | [] => by simp [opts]
  | c :: cs => by simp only [opts, slotss, slots_opt c [], slotss_opts cs]
end

mutual
theorem groups_slots : ∀ t : Node, groupsOf t = (slots t).length
  | .exact .. => by simp [groupsOf, slots]
  | .range .. => by simp [groupsOf, slots]
  | .space => by simp [groupsOf, slots]
  | .word => by simp [groupsOf, slots]
  | .any => by simp [groupsOf, slots]
  | .bos => by simp [groupsOf, slots]
  | .eol => by simp [groupsOf, slots]
  | .negated m => by simp only [groupsOf, slots]; exact groups_slots m
  | .simple m cs => by simp [groupsOf, slots, groups_slots m, groupss_slots cs]
  | .alt cs => by simp [groupsOf, slots, groupss_slots cs]
  | .greedy m _ _ cs => by simp [groupsOf, slots, groups_slots m, groupss_slots cs]
  | .lazy m _ _ cs => by simp [groupsOf, slots, groups_slots m, groupss_slots cs]
  | .possessive m _ _ cs => by simp [groupsOf, slots, groups_slots m, groupss_slots cs]
  | .repeated m _ cs => by simp [groupsOf, slots, groups_slots m, groupss_slots cs]
  | .group m _ cs => by simp [groupsOf, slots, groups_slots m, groupss_slots cs]
theorem groupss_slots : ∀ cs : List Node, groupsOfs cs = (slotss cs).length
  | [] => by simp [groupsOfs, slotss]
  | c :: cs => by simp [groupsOfs, slotss, groups_slots c, groupss_slots cs]
end

/-! ## the language is kept -/

/-- Two expressions match the same pieces of every query. -/
def Same (r s : Rx) : Prop := ∀ q i j, Den q r i j ↔ Den q s i j

theorem Same.refl (r : Rx) : Same r r := fun _ _ _ => Iff.rfl
theorem Same.trans {r s t : Rx} (h1 : Same r s) (h2 : Same s t) : Same r t :=
  fun q i j => (h1 q i j).trans (h2 q i j)

theorem iter_congr {α : Type} {R S : α → α → Prop} (h : ∀ i j, R i j ↔ S i j) :
    ∀ n i j, Iter R n i j ↔ Iter S n i j := by
  intro n
  induction n with
  | zero => intro i j; exact Iff.rfl
  | succ n ih =>
    intro i j
    simp only [Iter]
    constructor
    · rintro ⟨k, h1, h2⟩; exact ⟨k, (h i k).1 h1, (ih k j).1 h2⟩
    · rintro ⟨k, h1, h2⟩; exact ⟨k, (h i k).2 h1, (ih k j).2 h2⟩

theorem same_neg {r s : Rx} (h : Same r s) : Same (.neg r) (.neg s) := by
  intro q i j
  simp only [Den]
  constructor
  · rintro ⟨h1, h2, h3⟩; exact ⟨h1, h2, fun k hk => h3 k ((h q i k).2 hk)⟩
  · rintro ⟨h1, h2, h3⟩; exact ⟨h1, h2, fun k hk => h3 k ((h q i k).1 hk)⟩

theorem same_seq {r s r' s' : Rx} (h : Same r r') (h' : Same s s') : Same (.seq r s) (.seq r' s') := by
  intro q i j
  simp only [Den]
  constructor
  · rintro ⟨k, h1, h2⟩; exact ⟨k, (h q i k).1 h1, (h' q k j).1 h2⟩
  · rintro ⟨k, h1, h2⟩; exact ⟨k, (h q i k).2 h1, (h' q k j).2 h2⟩

theorem same_alt {r s r' s' : Rx} (h : Same r r') (h' : Same s s') : Same (.alt r s) (.alt r' s') := by
  intro q i j
  simp only [Den]
  rw [h q i j, h' q i j]

theorem same_rep {r s : Rx} (h : Same r s) (lo : Nat) (hi : Option Nat) : Same (.rep r lo hi) (.rep s lo hi) := by
  intro q i j
  simp only [Den]
  constructor
  · rintro ⟨n, h1, h2, h3⟩; exact ⟨n, h1, h2, (iter_congr (h q) n i j).1 h3⟩
  · rintro ⟨n, h1, h2, h3⟩; exact ⟨n, h1, h2, (iter_congr (h q) n i j).2 h3⟩

theorem same_seq_eps (r : Rx) : Same (.seq r .eps) r := by
  intro q i j
  simp only [Den]
  constructor
  · rintro ⟨k, h1, h2⟩; exact h2 ▸ h1
  · intro h; exact ⟨j, h, rfl⟩

/-- Pointwise equivalence of lists. -/
def Sames : List Rx → List Rx → Prop
  | [], [] => True
  | r :: rs, s :: ss => Same r s ∧ Sames rs ss
  | _, _ => False

theorem same_altOf : ∀ rs ss : List Rx, Sames rs ss → Same (altOf rs) (altOf ss) := by
  intro rs
  induction rs with
  | nil => intro ss h; cases ss <;> simp [Sames] at h; exact Same.refl _
  | cons r rs ih =>
    intro ss h
    cases ss with
    | nil => simp [Sames] at h
    | cons s ss =>
      simp only [Sames] at h
      cases rs with
      | nil =>
        cases ss with
        | nil => exact h.1
        | cons _ _ => simp [Sames] at h
      | cons r' rs =>
        cases ss with
        | nil => simp [Sames] at h
        | cons s' ss => simp only [altOf]; exact same_alt h.1 (ih _ h.2)

theorem same_contOf (rs ss : List Rx) (h : Sames rs ss) : Same (contOf rs) (contOf ss) := by
  cases rs with
  | nil => cases ss <;> simp [Sames] at h; exact Same.refl _
  | cons r rs =>
    cases ss with
    | nil => simp [Sames] at h
    | cons s ss => exact same_altOf _ _ h

mutual
theorem opt_same : ∀ (t : Node) (inj : List (List Int)), Same (toRx (opt t inj)) (toRx t)
  | .exact .., _ => by simp only [opt, toRx]; exact Same.refl _
  | .range .., _ => by simp only [opt, toRx]; exact Same.refl _
  | .space, _ => by simp only [opt]; exact Same.refl _
  | .word, _ => by simp only [opt]; exact Same.refl _
  | .any, _ => by simp only [opt]; exact Same.refl _
  | .bos, _ => by simp only [opt]; exact Same.refl _
  | .eol, _ => by simp only [opt]; exact Same.refl _
  | .negated m, _ => by simp only [opt, toRx]; exact same_neg (opt_same m [])
  | .simple m [], inj => by
    simp only [opt, toRx, toRxs, contOf]
    intro q i j
    rw [same_seq_eps (toRx m) q i j]; exact opt_same m inj q i j
  | .simple m (c :: cs), inj => by
    simp only [opt, toRx, toRxs]
    exact same_seq (opt_same m inj) (same_contOf _ _ ⟨opt_same c [], opts_same cs⟩)
  | .alt [], _ => by simp only [opt]; exact Same.refl _
  | .alt [c], inj => by simp only [opt, toRx, toRxs, contOf, altOf]; exact opt_same c inj
  | .alt (c :: d :: cs), _ => by
    simp only [opt, toRx, toRxs]
    exact same_contOf _ _ ⟨opt_same c [], opt_same d [], opts_same cs⟩
  | .greedy m lo hi cs, inj => by
    simp only [opt]
    split <;> (simp only [toRx]; exact same_seq (same_rep (opt_same m []) _ _) (same_contOf _ _ (opts_same cs)))
  | .lazy m lo hi cs, inj => by
    simp only [opt]
    split <;> (simp only [toRx]; exact same_seq (same_rep (opt_same m []) _ _) (same_contOf _ _ (opts_same cs)))
  | .possessive m lo hi cs, _ => by
    simp only [opt, toRx]; exact same_seq (same_rep (opt_same m []) _ _) (same_contOf _ _ (opts_same cs))
  | .repeated m n cs, _ => by
    simp only [opt, toRx]; exact same_seq (same_rep (opt_same m []) _ _) (same_contOf _ _ (opts_same cs))
  | .group m i cs, inj => by
    simp only [opt, toRx]; exact same_seq (opt_same m _) (same_contOf _ _ (opts_same cs))
theorem opts_same : ∀ (cs : List Node), Sames (toRxs (opts cs)) (toRxs cs)
  | [] => by simp [opts, toRxs, Sames]
  | c :: cs => by simp only [opts, toRxs, Sames]; exact ⟨opt_same c [], opts_same cs⟩
end

theorem rounds_same : ∀ (k : Nat) (t : Node), Same (toRx (rounds k t)) (toRx t)
  | 0, t => Same.refl _
  | k + 1, t => (rounds_same k (opt t [])).trans (opt_same t [])

theorem rounds_slots : ∀ (k : Nat) (t : Node), slots (rounds k t) = slots t
  | 0, t => rfl
  | k + 1, t => (rounds_slots k (opt t [])).trans (slots_opt t [])

end ERegex

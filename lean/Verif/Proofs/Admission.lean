import Verif.Proofs.AdmittedSet
import Verif.Proofs.Size
import Verif.Proofs.Decide
import Verif.Proofs.Sound
/-!
# First-character sets cover what they should, for a class of trees

`admOk t` : the set computed for the tree contains every ASCII character that can begin a (non-empty) match of it.
-/
set_option autoImplicit false
namespace ERegex
open Spec

/-- Decidable `Sorted`. -/
def sortedB : List Int → Bool
  | [] => true
  | [_] => true
  | x :: y :: l => decide (x < y) && sortedB (y :: l)

theorem sortedB_sorted : ∀ {l : List Int}, sortedB l = true → Sorted l
  | [], _ => List.Pairwise.nil
  | [_], _ => by simp [Sorted]
  | x :: y :: l, h => by
    simp only [sortedB, Bool.and_eq_true, decide_eq_true_eq] at h
    have ih := sortedB_sorted h.2
    refine List.pairwise_cons.2 ⟨fun z hz => ?_, ih⟩
    rcases List.mem_cons.1 hz with rfl | hz
    · exact h.1
    · have := (List.pairwise_cons.1 ih).1 z hz
      omega

/-- Class contents whose set contains only characters of the class (the set of a class is that of its first item). -/
def admIn : Node → Bool
  | .exact s _ => decide (s.length = 1)
  | .range .. | .space | .word => true
  | .simple m cs => admIn m && cs.isEmpty
  | .alt (c :: _) => admIn c && decide (minSize c ≠ 0)
  | _ => false

mutual
/-- Trees whose set covers the first characters of their matches. -/
def admOk : Node → Bool
  | .exact s _ => sortedB s
  | .range .. | .space | .word | .any | .bos => true
  | .eol => false
  | .negated m => admIn m
  | .simple m cs => admOk m && (decide (minSize m ≠ 0) || admOks cs)
  | .alt [] => true
  | .alt [c] => admOk c
  | .alt (c :: d :: cs) => decide (minSize c = 0) && admOk c && admOk d && admOks cs
  | .greedy m lo _ cs | .lazy m lo _ cs | .possessive m lo _ cs =>
    admOk m && (if lo = 0 then admOks cs else cs.isEmpty || decide (minSize m ≠ 0))
  | .repeated m n cs => admOk m && (cs.isEmpty || (decide (n ≠ 0) && decide (minSize m ≠ 0)))
  | .group m _ cs => admOk m && (cs.isEmpty || decide (minSize m ≠ 0))
/-- All of a list. -/
def admOks : List Node → Bool
  | [] => true
  | c :: cs => admOk c && admOks cs
end

theorem sorted_wordSet : Sorted wordSet := sortedB_sorted (by decide +kernel)
theorem sorted_spaceSet : Sorted spaceSet := sortedB_sorted (by decide +kernel)

theorem mem_wordSet (c : Int) : c ∈ wordSet ↔ (65 ≤ c ∧ c ≤ 90) ∨ (97 ≤ c ∧ c ≤ 122) ∨ (48 ≤ c ∧ c ≤ 57) ∨ c = 95 := by
  simp only [wordSet, mem_mergeSets, mem_admRange, List.mem_singleton]; grind

theorem sorted_ext1 {a : List Int} (h : Sorted a) : Sorted (extractAdm [a]) :=
  sorted_extractAdm _ (by simpa using h)

theorem mem_ext1 (c : Int) (a : List Int) : c ∈ extractAdm [a] ↔ c ∈ a := by simp [mem_extractAdm]

theorem admIn_spec : ∀ (m : Node), admIn m = true → Sorted (admSet m) ∧
    ∀ (q : List Int) (i : Nat) (c : Int), q[i]? = some c → c ∈ admSet m → ∃ k, Den q (toRx m) i k
  | .exact s _, h => by
    simp only [admIn, decide_eq_true_eq] at h
    obtain ⟨x, rfl⟩ := List.length_eq_one_iff.1 h
    refine ⟨by simp [admSet, Sorted], fun q i c hq hc => ?_⟩
    simp only [admSet, List.mem_singleton] at hc
    subst hc
    refine ⟨i + 1, by simp, fun k hk => ?_⟩
    have : k = 0 := by simpa using hk
    subst this; simpa using hq
  | .range a b _, _ => by
    refine ⟨sorted_admRange a b, fun q i c hq hc => ⟨i + 1, rfl, c, hq, ?_⟩⟩
    simp only [admSet, mem_admRange] at hc
    simp [hc]
  | .space, _ => by
    refine ⟨sorted_spaceSet, fun q i c hq hc => ⟨i + 1, rfl, c, hq, ?_⟩⟩
    simp only [admSet, spaceSet, List.mem_cons, List.not_mem_nil, or_false] at hc
    rcases hc with rfl | rfl | rfl | rfl | rfl <;> rfl
  | .word, _ => by
    refine ⟨sorted_wordSet, fun q i c hq hc => ⟨i + 1, rfl, c, hq, ?_⟩⟩
    simp only [admSet, mem_wordSet] at hc
    simp only [Bool.or_eq_true, Bool.and_eq_true, decide_eq_true_eq, beq_iff_eq]
    grind
  | .simple m cs, h => by
    simp only [admIn, Bool.and_eq_true, List.isEmpty_iff] at h
    obtain ⟨h1, rfl⟩ := h
    obtain ⟨e2, e3⟩ := admIn_spec m h1
    have ea : admSet (.simple m []) = extractAdm [admSet m] := by simp [admSet, admSets]
    refine ⟨by rw [ea]; exact sorted_ext1 e2, fun q i c hq hc => ?_⟩
    rw [ea, mem_ext1] at hc
    obtain ⟨k, hk⟩ := e3 q i c hq hc
    exact ⟨k, k, hk, (den_cont_nil q k k).2 rfl⟩
  | .alt [c], h => by
    simp only [admIn, Bool.and_eq_true] at h
    obtain ⟨e2, e3⟩ := admIn_spec c h.1
    refine ⟨by simpa only [admSet] using sorted_ext1 e2, fun q i x hq hc => ?_⟩
    simp only [admSet, mem_ext1] at hc
    exact e3 q i x hq hc
  | .alt (c :: d :: cs), h => by
    simp only [admIn, Bool.and_eq_true, decide_eq_true_eq] at h
    obtain ⟨e2, e3⟩ := admIn_spec c h.1
    have ea : admSet (.alt (c :: d :: cs)) = extractAdm [admSet c] := by simp [admSet, h.2]
    refine ⟨by rw [ea]; exact sorted_ext1 e2, fun q i x hq hc => ?_⟩
    rw [ea, mem_ext1] at hc
    obtain ⟨k, hk⟩ := e3 q i x hq hc
    exact ⟨k, (den_cont q (by simp) i k).2 ⟨c, by simp, hk⟩⟩
  | .any, h | .bos, h | .eol, h | .negated _, h | .greedy .., h | .lazy .., h | .possessive .., h | .repeated .., h
  | .group .., h | .alt [], h => by simp [admIn] at h

/-- The first non-empty repetition begins where the repetitions begin. -/
theorem iter_first {R : Nat → Nat → Prop} (hle : ∀ a b, R a b → a ≤ b) : ∀ (n i j : Nat), Iter R n i j → i < j → ∃ k, R i k ∧ i < k
  | 0, i, j, h, hij => by simp only [Iter] at h; omega
  | n + 1, i, j, h, hij => by
    obtain ⟨k, h1, h2⟩ := h
    have := hle _ _ h1
    by_cases hk : i = k
    · subst hk; exact iter_first hle n i j h2 hij
    · exact ⟨k, h1, by omega⟩

theorem mem_admSets (x : Int) : ∀ (cs : List Node) (c : Node), c ∈ cs → x ∈ admSet c → ∃ s ∈ admSets cs, x ∈ s
  | d :: cs, c, h, hx => by
    rcases List.mem_cons.1 h with rfl | h
    · exact ⟨_, by simp [admSets], hx⟩
    · obtain ⟨s, hs, hxs⟩ := mem_admSets x cs c h hx
      exact ⟨s, by simp [admSets, hs], hxs⟩

/-- What the theorem says of a tree. -/
def AdmSpec (t : Node) : Prop := Sorted (admSet t) ∧ ∀ (q : List Int) (i j : Nat) (c : Int), Den q (toRx t) i j → i < j →
  q[i]? = some c → 0 ≤ c → c ≤ 127 → c ∈ admSet t

theorem adm_cont {q : List Int} {cs : List Node} (h : ∀ c ∈ cs, AdmSpec c) {i j : Nat} {x : Int} (hd : Den q (contOf (toRxs cs)) i j)
    (hij : i < j) (hx : q[i]? = some x) (h0 : 0 ≤ x) (h1 : x ≤ 127) : ∃ s ∈ admSets cs, x ∈ s := by
  cases cs with
  | nil => rw [den_cont_nil] at hd; omega
  | cons c cs =>
    obtain ⟨d, hd1, hd2⟩ := (den_cont q (by simp) i j).1 hd
    exact mem_admSets x _ d hd1 ((h d hd1).2 q i j x hd2 hij hx h0 h1)

theorem sorted_admSets : ∀ {cs : List Node}, (∀ c ∈ cs, AdmSpec c) → ∀ s ∈ admSets cs, Sorted s
  | [], _, s, hs => by simp [admSets] at hs
  | c :: cs, h, s, hs => by
    simp only [admSets, List.mem_cons] at hs
    rcases hs with rfl | hs
    · exact (h c (by simp)).1
    · exact sorted_admSets (fun c hc => h c (by simp [hc])) s hs

theorem adm_quant {m : Node} {lo : Nat} {hi : Option Nat} {cs : List Node} (hm : AdmSpec m) (hn : negOk m = true)
    (hc : lo = 0 → ∀ c ∈ cs, AdmSpec c) (hc' : lo ≠ 0 → cs = [] ∨ minSize m ≠ 0) {S : List Int}
    (e : S = if lo = 0 then extractAdm (admSet m :: admSets cs) else admSet m) : Sorted S ∧
    ∀ (q : List Int) (i j : Nat) (c : Int), Den q (.seq (.rep (toRx m) lo hi) (contOf (toRxs cs))) i j → i < j →
      q[i]? = some c → 0 ≤ c → c ≤ 127 → c ∈ S := by
  by_cases hlo : lo = 0
  · rw [if_pos hlo] at e
    subst e
    refine ⟨sorted_extractAdm _ ?_, ?_⟩
    · intro s hs
      rcases List.mem_cons.1 hs with rfl | hs
      · exact hm.1
      · exact sorted_admSets (hc hlo) s hs
    · intro q i j c hd hij hq h0 h1
      obtain ⟨k, ⟨n, _, _, hit⟩, hd2⟩ := hd
      rw [mem_extractAdm]
      by_cases hk : i < k
      · obtain ⟨k', h2, h3⟩ := iter_first (fun a b h => (den_le q _ a b h).1) n i k hit hk
        exact ⟨admSet m, by simp, hm.2 q i k' c h2 h3 hq h0 h1⟩
      · have := iter_le (fun a b h => (den_le q _ a b h).1) n i k hit
        have : k = i := by omega
        subst this
        obtain ⟨s, hs, hx⟩ := adm_cont (hc hlo) hd2 hij hq h0 h1
        exact ⟨s, by simp [hs], hx⟩
  · rw [if_neg hlo] at e
    subst e
    refine ⟨hm.1, ?_⟩
    intro q i j c hd hij hq h0 h1
    obtain ⟨k, ⟨n, hn1, _, hit⟩, hd2⟩ := hd
    have hk : i < k := by
      rcases hc' hlo with rfl | hz
      · rw [den_cont_nil] at hd2; omega
      · cases n with
        | zero => omega
        | succ n =>
          obtain ⟨k', h2, h3⟩ := hit
          have := min_den q m hn i k' h2
          have := iter_le (fun a b h => (den_le q _ a b h).1) n k' k h3
          omega
    obtain ⟨k', h2, h3⟩ := iter_first (fun a b h => (den_le q _ a b h).1) n i k hit hk
    exact hm.2 q i k' c h2 h3 hq h0 h1

mutual
/-- The set covers the first characters. -/
theorem adm_spec : ∀ (t : Node), admOk t = true → negOk t = true → AdmSpec t
  | .exact s _, h, _ => by
    refine ⟨sortedB_sorted h, ?_⟩
    intro q i j c hd hij hq _ _
    obtain ⟨h1, h2⟩ := hd
    have := h2 0 (by omega)
    rw [Nat.add_zero, hq] at this
    exact List.mem_of_getElem? this.symm
  | .range a b _, _, _ => by
    refine ⟨sorted_admRange a b, ?_⟩
    intro q i j c hd hij hq _ _
    obtain ⟨_, d, h1, h2⟩ := hd
    rw [hq] at h1; cases h1
    simpa [admSet, mem_admRange] using h2
  | .space, _, _ => by
    refine ⟨sorted_spaceSet, ?_⟩
    intro q i j c hd hij hq _ _
    obtain ⟨_, d, h1, h2⟩ := hd
    rw [hq] at h1; cases h1
    simp only [Bool.or_eq_true, beq_iff_eq] at h2
    simp only [admSet, spaceSet, List.mem_cons, List.not_mem_nil, or_false]; grind
  | .word, _, _ => by
    refine ⟨sorted_wordSet, ?_⟩
    intro q i j c hd hij hq _ _
    obtain ⟨_, d, h1, h2⟩ := hd
    rw [hq] at h1; cases h1
    simp only [Bool.or_eq_true, Bool.and_eq_true, decide_eq_true_eq, beq_iff_eq] at h2
    simp only [admSet, mem_wordSet]; grind
  | .any, _, _ => by
    refine ⟨sorted_admRange 0 127, ?_⟩
    intro q i j c hd hij hq h0 h1
    simp only [admSet, mem_admRange]; omega
  | .bos, _, _ => by
    refine ⟨sorted_complementSet List.Pairwise.nil, ?_⟩
    intro q i j c hd hij hq h0 h1
    simp only [toRx, Den] at hd; omega
  | .negated m, h, _ => by
    obtain ⟨e2, e3⟩ := admIn_spec m h
    simp only [AdmSpec, admSet]
    refine ⟨sorted_complementSet (sorted_ext1 e2), ?_⟩
    intro q i j c hd hij hq h0 h1
    rw [mem_complementSet (sorted_ext1 e2), mem_ext1]
    refine Or.inr ⟨fun hc => ?_, h0, h1⟩
    obtain ⟨k, hk⟩ := e3 q i c hq hc
    exact hd.2.2 k hk
  | .simple m cs, h, hn => by
    simp only [admOk, Bool.and_eq_true, Bool.or_eq_true, decide_eq_true_eq] at h
    simp only [negOk, Bool.and_eq_true] at hn
    have hm := adm_spec m h.1 hn.1
    simp only [AdmSpec, admSet, toRx]
    by_cases hz : minSize m = 0
    · have hcs := adms_spec cs (h.2.resolve_left (by simp [hz])) hn.2
      rw [if_pos hz]
      have := adm_quant (lo := 0) (hi := some 1) (cs := cs) hm hn.1 (fun _ => hcs) (by simp) (S := extractAdm (admSet m :: admSets cs)) (by simp)
      refine ⟨this.1, fun q i j c hd => this.2 q i j c ?_⟩
      obtain ⟨k, h1, h2⟩ := hd
      exact ⟨k, ⟨1, by simp, by simp, iter_one h1⟩, h2⟩
    · rw [if_neg hz]
      refine ⟨sorted_ext1 hm.1, fun q i j c hd hij hq h0 h1 => ?_⟩
      obtain ⟨k, h2, h3⟩ := hd
      have := min_den q m hn.1 i k h2
      rw [mem_ext1]
      exact hm.2 q i k c h2 (by omega) hq h0 h1
  | .alt [], _, _ => by
    simp only [AdmSpec, admSet, toRx]
    refine ⟨List.Pairwise.nil, fun q i j c hd hij => ?_⟩
    rw [den_cont_nil] at hd; omega
  | .alt [c], h, hn => by
    simp only [admOk] at h
    simp only [negOk, negOks, Bool.and_true] at hn
    have hc := adm_spec c h hn
    simp only [AdmSpec, admSet]
    refine ⟨sorted_ext1 hc.1, fun q i j x hd hij hq h0 h1 => ?_⟩
    rw [mem_ext1]
    exact hc.2 q i j x hd hij hq h0 h1
  | .alt (c :: d :: cs), h, hn => by
    simp only [admOk, Bool.and_eq_true, decide_eq_true_eq] at h
    simp only [negOk, negOks, Bool.and_eq_true] at hn
    have hc := adm_spec c h.1.1.2 hn.1
    have hd := adm_spec d h.1.2 hn.2.1
    have hcs := adms_spec cs h.2 hn.2.2
    have hall : ∀ x ∈ c :: d :: cs, AdmSpec x := by
      intro x hx
      simp only [List.mem_cons] at hx
      rcases hx with rfl | rfl | hx
      · exact hc
      · exact hd
      · exact hcs x hx
    have ea : admSet (.alt (c :: d :: cs)) = extractAdm (admSets (c :: d :: cs)) := by simp [admSet, h.1.1.1, admSets]
    simp only [AdmSpec, ea]
    refine ⟨sorted_extractAdm _ (sorted_admSets hall), fun q i j x hden hij hq h0 h1 => ?_⟩
    rw [mem_extractAdm]
    exact adm_cont hall hden hij hq h0 h1
  | .greedy m lo hi cs, h, hn => by
    simp only [admOk, Bool.and_eq_true] at h
    simp only [negOk, Bool.and_eq_true] at hn
    simp only [AdmSpec, toRx]
    refine adm_quant (cs := cs) (adm_spec m h.1 hn.1) hn.1 (fun hlo => adms_spec cs (by simpa [hlo] using h.2) hn.2) (fun hlo => ?_) (by simp only [admSet])
    simpa [hlo] using h.2
  | .lazy m lo hi cs, h, hn => by
    simp only [admOk, Bool.and_eq_true] at h
    simp only [negOk, Bool.and_eq_true] at hn
    simp only [AdmSpec, toRx]
    refine adm_quant (cs := cs) (adm_spec m h.1 hn.1) hn.1 (fun hlo => adms_spec cs (by simpa [hlo] using h.2) hn.2) (fun hlo => ?_) (by simp only [admSet])
    simpa [hlo] using h.2
  | .possessive m lo hi cs, h, hn => by
    simp only [admOk, Bool.and_eq_true] at h
    simp only [negOk, Bool.and_eq_true] at hn
    simp only [AdmSpec, toRx]
    refine adm_quant (cs := cs) (adm_spec m h.1 hn.1) hn.1 (fun hlo => adms_spec cs (by simpa [hlo] using h.2) hn.2) (fun hlo => ?_) (by simp only [admSet])
    simpa [hlo] using h.2
  | .repeated m n cs, h, hn => by
    simp only [admOk, Bool.and_eq_true, Bool.or_eq_true, List.isEmpty_iff, decide_eq_true_eq] at h
    simp only [negOk, Bool.and_eq_true] at hn
    have hm := adm_spec m h.1 hn.1
    simp only [AdmSpec, admSet, toRx]
    refine ⟨sorted_ext1 hm.1, fun q i j c hd hij hq h0 h1 => ?_⟩
    rw [mem_ext1]
    obtain ⟨k, ⟨r, hr1, _, hit⟩, hd2⟩ := hd
    have hk : i < k := by
      rcases h.2 with rfl | ⟨hz, hz'⟩
      · rw [den_cont_nil] at hd2; omega
      · cases r with
        | zero => omega
        | succ r =>
          obtain ⟨k', h2, h3⟩ := hit
          have := min_den q m hn.1 i k' h2
          have := iter_le (fun a b h => (den_le q _ a b h).1) r k' k h3
          omega
    obtain ⟨k', h2, h3⟩ := iter_first (fun a b h => (den_le q _ a b h).1) r i k hit hk
    exact hm.2 q i k' c h2 h3 hq h0 h1
  | .group m _ cs, h, hn => by
    simp only [admOk, Bool.and_eq_true, Bool.or_eq_true, List.isEmpty_iff, decide_eq_true_eq] at h
    simp only [negOk, Bool.and_eq_true] at hn
    have hm := adm_spec m h.1 hn.1
    simp only [AdmSpec, admSet, toRx]
    refine ⟨sorted_ext1 hm.1, fun q i j c hd hij hq h0 h1 => ?_⟩
    rw [mem_ext1]
    obtain ⟨k, h2, h3⟩ := hd
    have hk : i < k := by
      rcases h.2 with rfl | hz
      · rw [den_cont_nil] at h3; omega
      · have := min_den q m hn.1 i k h2
        omega
    exact hm.2 q i k c h2 hk hq h0 h1
  | .eol, h, _ => by simp [admOk] at h
/-- … of every child. -/
theorem adms_spec : ∀ (cs : List Node), admOks cs = true → negOks cs = true → ∀ c ∈ cs, AdmSpec c
  | [], _, _, c, hc => absurd hc (by simp)
  | d :: cs, h, hn, c, hc => by
    simp only [admOks, Bool.and_eq_true] at h
    simp only [negOks, Bool.and_eq_true] at hn
    by_cases hcd : c = d
    · rw [hcd]; exact adm_spec d h.1 hn.1
    · exact adms_spec cs h.2 hn.2 c (by rcases List.mem_cons.1 hc with h | h; exact absurd h hcd; exact h)
end

end ERegex

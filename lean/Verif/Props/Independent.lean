import Verif.Proofs.Admission
import Verif.Props.Sound
import Verif.Props.Iterate
/-!
# C16 : `is_independent`
-/
set_option autoImplicit false
namespace ERegex.Props
open ERegex ERegex.Spec
open ERegex.Conformance (lit m)

/-- The character `c` can begin a (non-empty) text matched by `r`. -/
def Begins (r : Rx) (c : Int) : Prop := ∃ q i j, Den q r i j ∧ i < j ∧ q[i]? = some c

/-- **C16 (partial).** For every pair of patterns whose compiled trees meet `admOk` (no alternation of several non-empty branches,
classes of one item, no nullable part in front of a required one inside a group or an exact repetition, no `$`): if
`is_independent` says yes, no ASCII character can begin both a match of the one and a match of the other, as written.
Missing: the other patterns and the other characters, for which the claim is false of the code. -/
theorem C16_independent_partial (p1 p2 : List Int) (b1 b2 t1 t2 : Node) (hb1 : build p1 = some b1) (hb2 : build p2 = some b2)
    (h1 : compile p1 = some t1) (h2 : compile p2 = some t2) (ho1 : admOk t1 = true) (ho2 : admOk t2 = true)
    (hi : isIndependent t1 t2 = true) (c : Int) (h0 : 0 ≤ c) (h127 : c ≤ 127) : ¬ (Begins (toRx b1) c ∧ Begins (toRx b2) c) := by
  rintro ⟨⟨q, i, j, hd, hij, hq⟩, ⟨q', i', j', hd', hij', hq'⟩⟩
  have s1 := adm_spec t1 ho1 (compile_negOk h1)
  have s2 := adm_spec t2 ho2 (compile_negOk h2)
  simp only [compile, hb1] at h1
  simp only [compile, hb2] at h2
  obtain ⟨k1, rfl⟩ := optimize_rounds h1
  obtain ⟨k2, rfl⟩ := optimize_rounds h2
  have m1 := s1.2 q i j c ((rounds_same k1 b1 _ _ _).2 hd) hij hq h0 h127
  have m2 := s2.2 q' i' j' c ((rounds_same k2 b2 _ _ _).2 hd') hij' hq' h0 h127
  simp only [isIndependent, List.isEmpty_iff] at hi
  have := (mem_intersectSets (sorted_ext1 s1.1) (sorted_ext1 s2.1) c).2 ⟨(mem_ext1 _ _).2 m1, (mem_ext1 _ _).2 m2⟩
  rw [hi] at this
  simp at this

/-- What `is_independent` answers, and whether the hypotheses hold. -/
def independent (a b : List Int) : Option (Bool × Bool) := do
  let x ← compile a
  let y ← compile b
  return (admOk x && admOk y, isIndependent x y)

-- the hypotheses are met, with both answers
example : [("\\d+", "\\w"), ("\\w+", "-"), ("(\\d+)-(\\d+)", "x*y"), ("[^a]b", "a"), ("a?b{2}", "c|d?")].map
    (fun x => independent (str x.1) (str x.2)) =
    [some (true, false), some (true, true), some (true, true), some (true, true), some (false, true)] := by decide +kernel

/-- `is_independent` says yes, although the character `c` begins a match of both. -/
def Misjudged (p1 p2 : List Int) (c : Int) : Prop := ∃ b1 b2 t1 t2, build p1 = some b1 ∧ build p2 = some b2 ∧
  compile p1 = some t1 ∧ compile p2 = some t2 ∧ isIndependent t1 t2 = true ∧ Begins (toRx b1) c ∧ Begins (toRx b2) c

/-- Checking `Misjudged` on two texts. -/
def misjudged (p1 p2 : List Int) (c : Int) (x y : List Int) : Bool :=
  match build p1, build p2, compile p1, compile p2 with
  | some b1, some b2, some t1, some t2 => isIndependent t1 t2 && (ends x (toRx b1) 0).any (fun j => decide (0 < j)) &&
      (ends y (toRx b2) 0).any (fun j => decide (0 < j)) && decide (x[0]? = some c) && decide (y[0]? = some c)
  | _, _, _, _ => false

theorem misjudged_of {p1 p2 : List Int} {c : Int} (x y : List Int) (h : misjudged p1 p2 c x y = true) : Misjudged p1 p2 c := by
  unfold misjudged at h
  split at h
  · rename_i b1 b2 t1 t2 h1 h2 h3 h4
    simp only [Bool.and_eq_true, decide_eq_true_eq, List.any_eq_true] at h
    obtain ⟨⟨⟨⟨e1, j, e2, e2'⟩, j', e3, e3'⟩, e4⟩, e5⟩ := h
    exact ⟨b1, b2, t1, t2, h1, h2, h3, h4, e1, ⟨x, 0, j, (den_iff_ends (by simp)).2 e2, e2', e4⟩, ⟨y, 0, j', (den_iff_ends (by simp)).2 e3, e3', e5⟩⟩
  · simp at h

/-- **C16, refuted.** Only the first alternative, and only the first item of a class, is looked at. -/
theorem C16_refuted_alternatives : Misjudged (str "a|b") (str "b") 98 ∧ Misjudged (str "[a0]") (str "\\d") 48 :=
  ⟨misjudged_of (str "b") (str "b") (by decide +kernel), misjudged_of (str "0") (str "0") (by decide +kernel)⟩

/-- **C16, refuted.** What follows a group or a repetition that may be empty is not looked at; nor is the newline of `$`. -/
theorem C16_refuted_nullable : Misjudged (str "(a*)b") (str "b") 98 ∧ Misjudged (str "a{0}b") (str "b") 98 ∧
    Misjudged (str "(?:a*)+b") (str "b") 98 ∧ Misjudged (str "$") (str "\\n") 10 :=
  ⟨misjudged_of (str "b") (str "b") (by decide +kernel), misjudged_of (str "b") (str "b") (by decide +kernel),
    misjudged_of (str "b") (str "b") (by decide +kernel), misjudged_of [10] [10] (by decide +kernel)⟩

/-- **C16, refuted.** Characters outside `0..127`: `.` and the byte `\xC3` (`char` value -61). -/
theorem C16_refuted_non_ascii : Misjudged (str ".") [-61] (-61) := misjudged_of [-61] [-61] (by decide +kernel)

/-! ## C14 : when the heuristics replace a quantifier -/

/-- The pieces meet the condition of C16. -/
def admAll (l : List Node) : Prop := ∀ t ∈ l, admOk t = true ∧ negOk t = true

theorem admSets_mem : ∀ (l : List Node) (s : List Int), s ∈ admSets l ↔ ∃ t ∈ l, s = admSet t
  | [], s => by simp [admSets]
  | t :: l, s => by simp [admSets, admSets_mem l]

theorem apart_of_empty {s : List Int} {m : Node} {l : List Node} (hm : admOk m = true ∧ negOk m = true) (hl : admAll l) (hs : Sorted s)
    (hsub : ∀ c ∈ admSet m, c ∈ s) (he : (intersectSets s (extractAdm (admSets l))).isEmpty = true) (c : Int) (h0 : 0 ≤ c) (h127 : c ≤ 127)
    (hb : Begins (toRx m) c) : ∀ r ∈ l, ¬ Begins (toRx r) c := by
  rintro r hr ⟨q', i', j', hd', hij', hq'⟩
  obtain ⟨q, i, j, hd, hij, hq⟩ := hb
  have s1 := (adm_spec m hm.1 hm.2).2 q i j c hd hij hq h0 h127
  have s2 := (adm_spec r (hl r hr).1 (hl r hr).2).2 q' i' j' c hd' hij' hq' h0 h127
  have hsort : Sorted (extractAdm (admSets l)) := sorted_extractAdm _ (fun s hs => by
    obtain ⟨t, ht, rfl⟩ := (admSets_mem l s).1 hs
    exact (adm_spec t (hl t ht).1 (hl t ht).2).1)
  have hmem := (mem_intersectSets hs hsort c).2 ⟨hsub c s1, (mem_extractAdm c _).2 ⟨admSet r, (admSets_mem l _).2 ⟨r, hr, rfl⟩, s2⟩⟩
  rw [List.isEmpty_iff.1 he] at hmem
  simp at hmem

/-- The node is a possessive repetition. -/
def isPossessive : Node → Bool
  | .possessive .. => true
  | _ => false

/-- **C14 (partial), when it is applied.** For every greedy repetition whose repeated part `m`, and whatever follows it (`cs`, and `rs`
behind the group it ends), meet the condition of C16: the heuristics make it possessive only if no ASCII character can begin both a
further repetition and something that may follow. -/
theorem C14_greedy_only_if_apart_partial (m : Node) (lo hi : Nat) (cs rs : List Node) (hm : admOk m = true ∧ negOk m = true) (hl : admAll (cs ++ rs))
    (h : isPossessive (opt (.greedy m lo hi cs) (admSets rs)) = true) (c : Int) (h0 : 0 ≤ c) (h127 : c ≤ 127) (hb : Begins (toRx m) c) :
    ∀ r ∈ cs ++ rs, ¬ Begins (toRx r) c := by
  have happ : admSets cs ++ admSets rs = admSets (cs ++ rs) := by
    have : ∀ l : List Node, admSets l ++ admSets rs = admSets (l ++ rs) := by
      intro l
      induction l with
      | nil => rfl
      | cons x l ih => simp [admSets, ih]
    exact this cs
  rw [opt, happ] at h
  split at h
  · rename_i he
    exact apart_of_empty hm hl (adm_spec m hm.1 hm.2).1 (fun c hc => hc) he c h0 h127 hb
  · simp [isPossessive] at h

/-- **C14 (partial), when it is applied.** The same for a lazy repetition. -/
theorem C14_lazy_only_if_apart_partial (m : Node) (lo hi : Nat) (cs rs : List Node) (hm : admOk m = true ∧ negOk m = true)
    (hl : admAll (cs ++ rs)) (h : isPossessive (opt (.lazy m lo hi cs) (admSets rs)) = true) (c : Int) (h0 : 0 ≤ c)
    (h127 : c ≤ 127) (hb : Begins (toRx m) c) : ∀ r ∈ cs ++ rs, ¬ Begins (toRx r) c := by
  have happ : admSets cs ++ admSets rs = admSets (cs ++ rs) := by
    have : ∀ l : List Node, admSets l ++ admSets rs = admSets (l ++ rs) := by
      intro l
      induction l with
      | nil => rfl
      | cons x l ih => simp [admSets, ih]
    exact this cs
  rw [opt, happ] at h
  split at h
  · rename_i he
    have hsort : ∀ t ∈ m :: cs, Sorted (admSet t) := fun t ht => by
      rcases List.mem_cons.1 ht with rfl | ht
      · exact (adm_spec _ hm.1 hm.2).1
      · have := hl t (by simp [ht]); exact (adm_spec t this.1 this.2).1
    refine apart_of_empty hm hl ?_ ?_ he c h0 h127 hb
    · simp only [admSet]
      split
      · refine sorted_extractAdm _ (fun s hs => ?_)
        have : s ∈ admSets (m :: cs) := hs
        obtain ⟨t, ht, rfl⟩ := (admSets_mem _ s).1 this
        exact hsort t ht
      · exact hsort m (by simp)
    · intro c hc
      simp only [admSet]
      split
      · exact (mem_extractAdm c _).2 ⟨admSet m, by simp, hc⟩
      · exact hc
  · simp [isPossessive] at h

theorem group_looks_behind (m : Node) (idx : Nat) (cs rs : List Node) :
    opt (.group m idx cs) (admSets rs) = .group (opt m (admSets (cs ++ rs))) idx (opts cs) := by
  have : ∀ l : List Node, admSets l ++ admSets rs = admSets (l ++ rs) := by
    intro l
    induction l with
    | nil => rfl
    | cons x l ih => simp [admSets, ih]
  rw [opt, this]

/-- **C14 (partial), when it is applied.** A greedy repetition at the end of a group becomes possessive only if no ASCII character can begin
both a further repetition and something that may follow the group. -/
theorem C14_in_group_only_if_apart_partial (m m' : Node) (lo hi idx : Nat) (cs cs' rs : List Node) (hm : admOk m = true ∧ negOk m = true)
    (hl : admAll (cs ++ rs)) (h : opt (.group (.greedy m lo hi []) idx cs) (admSets rs) = .group m' idx cs') (hp : isPossessive m' = true) (c : Int)
    (h0 : 0 ≤ c) (h127 : c ≤ 127) (hb : Begins (toRx m) c) : ∀ r ∈ cs ++ rs, ¬ Begins (toRx r) c := by
  rw [group_looks_behind] at h
  injection h with h
  subst h
  exact C14_greedy_only_if_apart_partial m lo hi [] (cs ++ rs) hm (by simpa using hl) hp c h0 h127 hb

-- the hypotheses are met: `\w+` in front of `-`, and `\d+` at the end of a group with `x` behind it
example : admAll [.exact [45] [45]] ∧ admOk .word = true ∧ negOk .word = true ∧ isPossessive (opt (.greedy .word 1 umax [.exact [45] [45]]) (admSets [])) = true := by
  refine ⟨?_, by decide +kernel⟩
  intro t ht
  simp only [List.mem_singleton] at ht
  subst ht
  decide +kernel
example : opt (.group (.greedy (.range 48 57 []) 1 umax []) 0 [.exact [120] [120]]) [] =
    .group (.possessive (.range 48 57 [91, 48, 45, 57, 93]) 1 umax []) 0 [.exact [120] [120]] := by decide +kernel

end ERegex.Props

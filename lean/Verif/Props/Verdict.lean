import Verif.Proofs.FirstChars
import Verif.Proofs.Opens
import Verif.Props.Independent
import Verif.Props.Bindings
/-!
# C16, C17 : `is_independent` and the smallest size, on the pattern as written
-/
set_option autoImplicit false
namespace ERegex.Props
open ERegex ERegex.Spec
open ERegex.Conformance (lit m)

theorem rounds_fst : ∀ (k : Nat) (t : Node), admSet (rounds k t) = admSet t ∧ minSize (rounds k t) = minSize t
  | 0, _ => ⟨rfl, rfl⟩
  | k + 1, t => by
    have := rounds_fst k (opt t [])
    rw [rounds]; exact ⟨this.1.trans (admSet_opt t []), this.2.trans (minSize_opt t [])⟩

theorem compiled_firsts {as : Alts} (hok : as.ok = true) (hb : as.bulk < 4294967296) {t : Node} (h : compile as.spell = some t) :
    Fst t as.firsts ∧ minSize t = as.gauge := by
  obtain ⟨b, h1, h2⟩ := compile_split h
  rw [build_tree as hok] at h1; cases h1
  obtain ⟨k, rfl⟩ := optimize_rounds h2
  obtain ⟨e1, e2⟩ := rounds_fst k as.tree
  have := tree_firsts hok hb
  exact ⟨by unfold Fst; rw [e1]; exact this, by rw [e2]; exact tree_gauge hok hb⟩

/-- **C17, exact.** For every well-formed pattern whose sizes fit 32 bits, the smallest size the library computes is this one: the sum over the parts of
an alternative of size times lower bound, up to the first unquantified capturing group or `{n}` (whose continuation is not counted), the minimum over
alternatives. -/
theorem C17_written (as : Alts) (hok : as.ok = true) (hb : as.bulk < 4294967296) (t : Node) (h : compile as.spell = some t) : minSize t = as.gauge :=
  (compiled_firsts hok hb h).2

/-- **C16, what it answers.** For every pair of well-formed patterns whose sizes fit 32 bits: `is_independent` says yes if and only if the two sets of
first characters that the library computes from the patterns as written (`Alts.firsts`) have no common member. -/
theorem C16_exact (as bs : Alts) (ha : as.ok = true) (hb : bs.ok = true) (ba : as.bulk < 4294967296) (bb : bs.bulk < 4294967296) (s t : Node)
    (hs : compile as.spell = some s) (ht : compile bs.spell = some t) :
    isIndependent s t = true ↔ ∀ x, ¬ (as.firsts x = true ∧ bs.firsts x = true) := by
  have f1 := (compiled_firsts ha ba hs).1
  have f2 := (compiled_firsts hb bb ht).1
  have key : ∀ x, x ∈ intersectSets (extractAdm [admSet s]) (extractAdm [admSet t]) ↔ as.firsts x = true ∧ bs.firsts x = true := fun x => by
    rw [mem_intersectSets (sorted_ext1 f1.1) (sorted_ext1 f2.1), mem_ext1, mem_ext1, f1.2, f2.2]
  simp only [isIndependent, List.isEmpty_iff]
  constructor
  · intro h x hx
    have := (key x).2 hx
    rw [h] at this; simp at this
  · intro h
    cases hl : intersectSets (extractAdm [admSet s]) (extractAdm [admSet t]) with
    | nil => rfl
    | cons x l => exact absurd ((key x).1 (by rw [hl]; simp)) (h x)

/-- The ASCII characters. -/
def asciis : List Int := (List.range 128).map (fun (n : Nat) => (n : Int))

theorem mem_asciis {c : Int} : c ∈ asciis ↔ 0 ≤ c ∧ c ≤ 127 := by
  simp only [asciis, List.mem_map, List.mem_range]
  exact ⟨fun ⟨n, h, e⟩ => by omega, fun h => ⟨c.toNat, by omega, by omega⟩⟩

/-- The computed set has every ASCII character a match of the pattern can begin with (textbook first set). -/
def _root_.ERegex.Spec.Alts.covered (as : Alts) : Bool := asciis.all (fun x => !as.sem.opens x || as.firsts x)

/-- **C16, on the pattern as written (partial).** For every pair of well-formed patterns whose computed sets have all their ASCII first characters
(`covered`, decidable on the text of the pattern): if `is_independent` says yes, no ASCII character can begin both a match of the one and a match of the
other.  Missing: the other patterns and characters; for the patterns see `C16_reliable`. -/
theorem C16_written_partial (as bs : Alts) (ha : as.ok = true) (hb : bs.ok = true) (ba : as.bulk < 4294967296) (bb : bs.bulk < 4294967296)
    (ca : as.covered = true) (cb : bs.covered = true) (s t : Node) (hs : compile as.spell = some s) (ht : compile bs.spell = some t)
    (hi : isIndependent s t = true) (c : Int) (h0 : 0 ≤ c) (h127 : c ≤ 127) : ¬ (Begins as.sem c ∧ Begins bs.sem c) := by
  rintro ⟨⟨q, i, j, hd, hij, hq⟩, ⟨q', i', j', hd', hij', hq'⟩⟩
  have hm : c ∈ asciis := mem_asciis.2 ⟨h0, h127⟩
  have o1 := (den_opens q _ i j hd).2 c hij hq
  have o2 := (den_opens q' _ i' j' hd').2 c hij' hq'
  have c1 := List.all_eq_true.1 ca c hm
  have c2 := List.all_eq_true.1 cb c hm
  rw [o1] at c1
  rw [o2] at c2
  exact (C16_exact as bs ha hb ba bb s t hs ht).1 hi c ⟨by simpa using c1, by simpa using c2⟩

theorem itself_good {c : Int} (h0 : 0 ≤ c) (h127 : c ≤ 127) : (itself c).ok = true ∧ (∀ x, (itself c).firsts x = (x == c)) ∧
    (∀ x, (itself c).sem.opens x = (x == c)) := by
  have hk : plainB c = true ∨ (plainB c = false ∧ escB c = true ∧ c ≠ 97 ∧ c ≠ 114 ∧ c ≠ 101 ∧ c ≠ 102 ∧ c ≠ 110 ∧ c ≠ 116 ∧ c ≠ 100 ∧ c ≠ 115 ∧ c ≠ 119) := by
    have : ∀ n : Fin 128, plainB (n : Nat) = true ∨ (plainB (n : Nat) = false ∧ escB (n : Nat) = true ∧ ((n : Nat) : Int) ≠ 97 ∧ ((n : Nat) : Int) ≠ 114 ∧ ((n : Nat) : Int) ≠ 101 ∧
        ((n : Nat) : Int) ≠ 102 ∧ ((n : Nat) : Int) ≠ 110 ∧ ((n : Nat) : Int) ≠ 116 ∧ ((n : Nat) : Int) ≠ 100 ∧ ((n : Nat) : Int) ≠ 115 ∧ ((n : Nat) : Int) ≠ 119) := by decide +kernel
    have := this ⟨c.toNat, by omega⟩
    have e : ((c.toNat : Nat) : Int) = c := by omega
    simp only [e] at this
    exact this
  rcases hk with h | ⟨h, h2, h3⟩
  · simp [itself, h, Alts.ok, Sq.ok, Atom.ok, Quant.ok, Sq.empty, Alts.firsts, Sq.firsts, Atom.firsts, Alts.sem, Sq.sem, Atom.sem, Quant.sem, Rx.opens, Rx.empties]
  · simp [itself, h, h2, h3, escape, Alts.ok, Sq.ok, Atom.ok, Quant.ok, Sq.empty, Alts.firsts, Sq.firsts, Atom.firsts, Alts.sem, Sq.sem, Atom.sem, Quant.sem, Rx.opens, Rx.empties]

theorem itself_covered {c : Int} (h0 : 0 ≤ c) (h127 : c ≤ 127) : (itself c).covered = true := by
  obtain ⟨_, h1, h2⟩ := itself_good h0 h127
  refine List.all_eq_true.2 (fun x _ => ?_)
  rw [h1, h2]; cases (x == c) <;> rfl

/-- Some text of the pattern begins with `c`, and matches wherever it stands. -/
theorem begins_of_opens {r : Rx} (h : r.filled = true) (hf : r.floats = true) {c : Int} (ho : r.opens c = true) : Begins r c := by
  obtain ⟨w, hw⟩ := stands_opens r h hf c ho
  exact ⟨c :: w, 0, (c :: w).length, by simpa using stands_den (c :: w) r (c :: w) 0 hw (by simp), by simp, rfl⟩

/-- **C16, when it can be relied on.** For every well-formed pattern without anchors whose parts can all match something: `is_independent`, called with
any other pattern of the proved kind, is sound for ASCII characters if and only if the pattern is `covered`.  (So the condition of `C16_written_partial`
cannot be weakened.) -/
theorem C16_reliable (as : Alts) (ha : as.ok = true) (ba : as.bulk < 4294967296) (hf : as.sem.floats = true) (hl : as.sem.filled = true) :
    as.covered = true ↔ ∀ (bs : Alts) (s t : Node), bs.ok = true → bs.bulk < 4294967296 → bs.covered = true → compile as.spell = some s →
      compile bs.spell = some t → isIndependent s t = true → ∀ c, 0 ≤ c → c ≤ 127 → ¬ (Begins as.sem c ∧ Begins bs.sem c) := by
  constructor
  · intro ca bs s t hb bb cb hs ht hi c h0 h127
    exact C16_written_partial as bs ha hb ba bb ca cb s t hs ht hi c h0 h127
  · intro h
    refine List.all_eq_true.2 (fun c hm => ?_)
    obtain ⟨h0, h127⟩ := mem_asciis.1 hm
    cases ho : as.sem.opens c with
    | false => rfl
    | true =>
      cases hfi : as.firsts c with
      | true => rfl
      | false =>
        exfalso
        obtain ⟨ok2, f2, o2⟩ := itself_good h0 h127
        obtain ⟨s, hs, _⟩ := compile_tame ha
        obtain ⟨t, ht, _⟩ := compile_tame ok2
        have bb : (itself c).bulk < 4294967296 := by
          unfold itself; split <;> simp [Alts.bulk, Sq.bulk, Atom.bulk, Quant.lo]
        refine h (itself c) s t ok2 bb (itself_covered h0 h127) hs ht ?_ c h0 h127
          ⟨begins_of_opens hl hf ho, begins_of_opens ?_ ?_ (by rw [o2]; simp)⟩
        · refine (C16_exact as (itself c) ha ok2 ba bb s t hs ht).2 (fun x hx => ?_)
          rw [f2] at hx
          have : x = c := by simpa using hx.2
          subst this
          rw [hfi] at hx; simp at hx
        · have : allChars.any (fun x => x == c) = true := by
            simp only [List.any_eq_true, beq_iff_eq]
            exact ⟨c, by rw [mem_allChars]; omega, rfl⟩
          have h3 := o2
          unfold itself at h3 ⊢
          split at h3 <;> rename_i hp <;>
            simp only [hp, if_true, Bool.false_eq_true, if_false, Alts.sem, Sq.sem, Atom.sem, Quant.sem, Rx.opens, Rx.empties, Rx.filled, Bool.and_true, Bool.false_and, Bool.or_false, Bool.or_self] at h3 ⊢
          · exact this
          · rw [show escape c = (fun x => x == c) from funext h3]; exact this
        · unfold itself; split <;> simp [Alts.sem, Sq.sem, Atom.sem, Quant.sem, Rx.floats]

-- `\d+\.?\d*`, `(\w+)=(\w*)`, `a|ab` … are covered, `a|b`, `[ab]`, `(a*)b` are not
example : decimalPattern.covered = true ∧ decimalPattern.ok = true ∧ decimalPattern.bulk < 4294967296 ∧ decimalPattern.sem.floats = true ∧ decimalPattern.sem.filled = true ∧
    decimalPattern.gauge = 1 ∧ mailPattern.covered = true ∧ mailPattern.gauge = 7 := by decide +kernel
example : (Alts.more false (.cons (.chr 97) .once (.nil false)) (.last false (.cons (.chr 97) .once (.cons (.chr 98) .once (.nil false))))).covered = true ∧
    (Alts.more false (.cons (.chr 97) .once (.nil false)) (.last false (.cons (.chr 98) .once (.nil false)))).covered = false ∧
    (Alts.last false (.cons (.group true (.last false (.cons (.chr 97) (.star .greedy) (.nil false)))) .once (.cons (.chr 98) .once (.nil false)))).covered = false ∧
    (Alts.last false (.cons (.group false (.last false (.cons (.chr 97) (.star .greedy) (.nil false)))) .once (.cons (.chr 98) .once (.nil false)))).covered = true := by
  decide +kernel
-- both answers occur: `\d+\.?\d*` against the mail pattern, and against itself
example : (do return isIndependent (← compile decimalPattern.spell) (← compile mailPattern.spell)) = some true ∧
    (do return isIndependent (← compile decimalPattern.spell) (← compile decimalPattern.spell)) = some false := by decide +kernel

end ERegex.Props

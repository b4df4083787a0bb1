import Verif.Proofs.Longest
import Verif.Props.Verdict
import Verif.Props.Written
/-!
# C17, C46 : the smallest and the largest size, compared with the shortest and the longest text
-/
set_option autoImplicit false
namespace ERegex.Props
open ERegex ERegex.Spec
open ERegex.Conformance (lit m)

/-- **C46, exact.** For every well-formed pattern whose smallest sizes fit 32 bits, the largest size the library computes is `Alts.crest` (which can be read
off the pattern as written). -/
theorem C46_exact (as : Alts) (hok : as.ok = true) (hb : as.bulk < 4294967296) (t : Node) (h : compile as.spell = some t) : maxSize t = as.crest := by
  obtain ⟨b, h1, h2⟩ := compile_split h
  rw [build_tree as hok] at h1; cases h1
  obtain ⟨k, rfl⟩ := optimize_rounds h2
  rw [← tree_crest as hok hb, ← rounds_peak k as.tree, ← max_opt (rounds k as.tree) [], optFix_stable _ _ _ h2]

/-- **C46, on the pattern as written (partial).** For every well-formed pattern whose longest text has a length, which is not above the computed size (both
decidable on the pattern as written): no text the pattern stands for, in whatever query, is longer than the largest size the library computes.
Missing: the other patterns; for them see `C46_reliable`. -/
theorem C46_written_partial (as : Alts) (hok : as.ok = true) (hb : as.bulk < 4294967296) (t : Node) (h : compile as.spell = some t) (n : Nat)
    (hn : as.sem.longest = some n) (hle : n ≤ as.crest) (q : List Int) (i j : Nat) (hd : Den q as.sem i j) : j ≤ i + maxSize t := by
  have := den_longest q _ i j n hn hd
  rw [C46_exact as hok hb t h]; omega

/-- **C46, when it can be relied on.** For every well-formed pattern without anchors whose parts can all match something: the computed size is an upper
bound of the length of the texts if and only if they have a longest one and that is not longer than `Alts.crest`. -/
theorem C46_reliable (as : Alts) (hok : as.ok = true) (hb : as.bulk < 4294967296) (hf : as.sem.floats = true) (hl : as.sem.filled = true) (t : Node)
    (h : compile as.spell = some t) :
    (∀ (q : List Int) (i j : Nat), Den q as.sem i j → j ≤ i + maxSize t) ↔ ∃ n, as.sem.longest = some n ∧ n ≤ as.crest := by
  constructor
  · intro hd
    rw [C46_exact as hok hb t h] at hd
    obtain ⟨h1, h2⟩ := stands_longest as.sem hl hf
    have st : ∀ w, as.sem.Stands w → w.length ≤ as.crest := fun w hw => by
      have := hd w 0 (0 + w.length) (stands_den w as.sem w 0 hw (by simp))
      omega
    cases hn : as.sem.longest with
    | none =>
      obtain ⟨w, hw, hlen⟩ := h2 hn (as.crest + 1)
      have := st w hw
      omega
    | some n =>
      obtain ⟨w, hw, hlen⟩ := h1 n hn
      exact ⟨n, rfl, by rw [← hlen]; exact st w hw⟩
  · rintro ⟨n, hn, hle⟩ q i j hd
    exact C46_written_partial as hok hb t h n hn hle q i j hd

/-- **C46, fixed width.** For every such pattern: the texts of the pattern all have length `n` if and only if `n` is the length of the shortest and the
longest text as computed from the pattern as written. -/
theorem C46_width (as : Alts) (hf : as.sem.floats = true) (hl : as.sem.filled = true) (n : Nat) :
    (∀ (q : List Int) (i j : Nat), Den q as.sem i j → j = i + n) ↔ as.sem.shortest = n ∧ as.sem.longest = some n := by
  constructor
  · intro hd
    have st : ∀ w, as.sem.Stands w → w.length = n := fun w hw => by
      have := hd w 0 (0 + w.length) (stands_den w as.sem w 0 hw (by simp))
      omega
    obtain ⟨w, hw, hlen⟩ := stands_shortest as.sem hl hf
    obtain ⟨h1, h2⟩ := stands_longest as.sem hl hf
    refine ⟨by rw [← hlen]; exact st w hw, ?_⟩
    cases hn : as.sem.longest with
    | none =>
      obtain ⟨v, hv, hlv⟩ := h2 hn (n + 1)
      have := st v hv
      omega
    | some k =>
      obtain ⟨v, hv, hlv⟩ := h1 k hn
      rw [← hlv, st v hv]
  · rintro ⟨h1, h2⟩ q i j hd
    have := den_longest q _ i j n h2 hd
    have := den_shortest q _ i j hd
    omega

mutual
theorem gauge_atom : ∀ a : Atom, a.gauge ≤ a.sem.shortest
  | .chr _ | .esc _ | .dot | .hex .. | .oct .. | .cls .. => Nat.le_refl _
  | .group _ as => by simp only [Atom.gauge, Atom.sem]; exact gauge_alts as
theorem gauge_sq : ∀ s : Sq, s.gauge ≤ s.sem.shortest
  | .nil d => Nat.zero_le _
  | .cons a q s => by
    have h1 := gauge_atom a
    have h2 := gauge_sq s
    have h3 : a.gauge * q.lo ≤ (q.sem a.sem).shortest := by
      cases q with
      | once => simpa [Quant.sem, Quant.lo] using h1
      | _ => exact Nat.mul_le_mul_right _ h1
    simp only [Sq.gauge, Sq.sem, Rx.shortest]
    split <;> omega
theorem gauge_alts : ∀ as : Alts, as.gauge ≤ as.sem.shortest
  | .last hat s => by
    have := gauge_sq s
    cases hat <;> simp [Alts.gauge, Alts.sem, Rx.shortest] <;> exact this
  | .more hat s as => by
    have := gauge_sq s
    have := gauge_alts as
    cases hat <;> simp only [Alts.gauge, Alts.sem, Rx.shortest, if_true, Bool.false_eq_true, if_false] <;> omega
end

/-- **C17, when the bound is reached.** For every well-formed pattern without anchors whose parts can all match something: the smallest size the library
computes is the length of some text of the pattern if and only if it is the length of the shortest text (`Rx.shortest`); otherwise (which takes something
behind an unquantified capturing group or `{n}`) it is below. -/
theorem C17_tight (as : Alts) (hok : as.ok = true) (hb : as.bulk < 4294967296) (hf : as.sem.floats = true) (hl : as.sem.filled = true) (t : Node)
    (h : compile as.spell = some t) :
    minSize t ≤ as.sem.shortest ∧ ((∃ (q : List Int) (i : Nat), Den q as.sem i (i + minSize t)) ↔ minSize t = as.sem.shortest) := by
  have hg := gauge_alts as
  rw [C17_written as hok hb t h]
  refine ⟨hg, fun ⟨q, i, hd⟩ => ?_, fun e => ?_⟩
  · have := den_shortest q _ _ _ hd
    omega
  · obtain ⟨w, hw, hlen⟩ := stands_shortest as.sem hl hf
    exact ⟨w, 0, by rw [e, ← hlen]; exact stands_den w as.sem w 0 hw (by simp)⟩

/-- **C17, C46 for what is reported (partial).** Under the conditions of C20 as written: a text reported as a match is at least as long as the smallest size
computed, and not longer than the largest one if that is not below the length of the longest text.  Missing: the other patterns (C20). -/
theorem C46_reported_partial (as : Alts) (hok : as.ok = true) (hb : as.bulk < 4294967296) (hs : as.sure false true = true) (nul : Bool) (ht : as.tame nul false 1 = true)
    (t : Node) (h : compile as.spell = some t) (cx : Ctx) (hnul : nul = true → cx.post.head? = some 0) (st : St) (hr : Reach cx t st) (ha : st.accepted = true) :
    ∃ (i j : Nat), toView st = some ((i : Int), (j : Int)) ∧ i + minSize t ≤ j ∧ ∀ n, as.sem.longest = some n → n ≤ as.crest → j ≤ i + maxSize t := by
  obtain ⟨i, j, _, h1, h2, _⟩ := C20_written_partial as hok hs nul ht t h cx hnul st hr ha
  refine ⟨i, j, h1, ?_, fun n hn hle => C46_written_partial as hok hb t h n hn hle cx.query i j h2⟩
  have := den_shortest cx.query _ i j h2
  have := gauge_alts as
  rw [C17_written as hok hb t h]; omega

/-- `[ab]c{2,3}` -/
def fewPattern : Alts := .last false (.cons (.cls false [.chr 97, .chr 98] false) .once (.cons (.chr 99) (.between [50] [51] .greedy) (.nil false)))
/-- `(?:\d{2,3}x|y)?z` -/
def vagPattern : Alts := .last false (.cons (.group false (.more false (.cons (.esc 100) (.between [50] [51] .greedy) (.cons (.chr 120) .once (.nil false)))
  (.last false (.cons (.chr 121) .once (.nil false))))) (.opt .greedy) (.cons (.chr 122) .once (.nil false)))
/-- `a{2,5}b` -/
def upPattern : Alts := .last false (.cons (.chr 97) (.between [50] [53] .greedy) (.cons (.chr 98) .once (.nil false)))

-- the sizes of the three patterns: the first two are not relied on, the last one is; all three meet the hypotheses
example : [fewPattern, vagPattern, upPattern].map (fun as => (as.ok, decide (as.bulk < 4294967296), as.sem.floats, as.sem.filled)) =
    [(true, true, true, true), (true, true, true, true), (true, true, true, true)] := by decide +kernel
example : [fewPattern, vagPattern, upPattern].map (fun as => (as.gauge, as.crest, as.sem.shortest, as.sem.longest)) =
    [(3, 3, 3, some 4), (1, 4, 1, some 5), (3, 6, 3, some 6)] := by decide +kernel
example : fewPattern.spell = str "[ab]c{2,3}" ∧ vagPattern.spell = str "(?:\\d{2,3}x|y)?z" ∧ upPattern.spell = str "a{2,5}b" := by decide +kernel
example : [fewPattern, vagPattern, upPattern].map (fun as => (compile as.spell).map (fun t => (minSize t, maxSize t))) = [some (3, 3), some (1, 4), some (3, 6)] := by
  decide +kernel
-- unbounded repetition inside: no longest text
example : numberPattern.sem.longest = none := by decide +kernel
-- the conditions of `C46_reported_partial` are met
example : upPattern.sure false true = true ∧ upPattern.tame false false 1 = true := by decide +kernel

end ERegex.Props

import Verif.Spec.Longest
import Verif.Proofs.Opens
import Verif.Proofs.FirstChars
/-!
# The shortest and the longest text, and the largest size computed
-/
set_option autoImplicit false
namespace ERegex
open ERegex.Spec

/-! ## shortest -/

theorem iter_least {q : List Int} {r : Rx} (h : ∀ i j, Den q r i j → i + r.shortest ≤ j) : ∀ (n i j : Nat), Iter (Den q r) n i j → i + r.shortest * n ≤ j
  | 0, i, j, e => by simp only [Iter] at e; omega
  | n + 1, i, j, ⟨k, h1, h2⟩ => by
    have := h i k h1
    have := iter_least h n k j h2
    rw [Nat.mul_succ]; omega

theorem den_shortest (q : List Int) : ∀ (r : Rx) (i j : Nat), Den q r i j → i + r.shortest ≤ j
  | .eps, i, j, h => by simp only [Den, Rx.shortest] at *; omega
  | .fail, i, j, h => by simp [Den] at h
  | .lit s, i, j, h => by simp only [Den, Rx.shortest] at *; omega
  | .cls p, i, j, h => by simp only [Den, Rx.shortest] at *; omega
  | .bos, i, j, h => by simp only [Den, Rx.shortest] at *; omega
  | .eol, i, j, h => by simp only [Den, Rx.shortest] at *; omega
  | .neg r, i, j, h => by simp only [Den, Rx.shortest] at *; omega
  | .seq r s, i, j, ⟨k, h1, h2⟩ => by
    have := den_shortest q r i k h1
    have := den_shortest q s k j h2
    simp only [Rx.shortest]; omega
  | .alt r s, i, j, h => by
    simp only [Rx.shortest]
    rcases h with h | h
    · have := den_shortest q r i j h; omega
    · have := den_shortest q s i j h; omega
  | .rep r lo hi, i, j, ⟨n, h1, _, h3⟩ => by
    have h4 := iter_least (fun i j => den_shortest q r i j) n i j h3
    have h5 := Nat.mul_le_mul_left r.shortest h1
    simp only [Rx.shortest]; omega

theorem power_len {L : List Int → Prop} {w : List Int} (h : L w) : ∀ n, ∃ v, Power L n v ∧ v.length = w.length * n
  | 0 => ⟨[], rfl, rfl⟩
  | n + 1 => by
    obtain ⟨v, hv, hl⟩ := power_len h n
    exact ⟨w ++ v, ⟨w, v, rfl, h, hv⟩, by rw [List.length_append, hl, Nat.mul_succ]; omega⟩

theorem stands_shortest : ∀ r : Rx, r.filled = true → r.floats = true → ∃ w, r.Stands w ∧ w.length = r.shortest
  | .eps, _, _ => ⟨[], rfl, rfl⟩
  | .fail, h, _ => by simp [Rx.filled] at h
  | .lit s, _, _ => ⟨s, rfl, rfl⟩
  | .cls p, h, _ => by
    simp only [Rx.filled, List.any_eq_true] at h
    obtain ⟨c, _, hc⟩ := h
    exact ⟨[c], ⟨c, rfl, hc⟩, rfl⟩
  | .seq r s, h, hf => by
    simp only [Rx.filled, Rx.floats, Bool.and_eq_true] at h hf
    obtain ⟨u, hu, lu⟩ := stands_shortest r h.1 hf.1
    obtain ⟨v, hv, lv⟩ := stands_shortest s h.2 hf.2
    exact ⟨u ++ v, ⟨u, v, rfl, hu, hv⟩, by simp [Rx.shortest, lu, lv]⟩
  | .alt r s, h, hf => by
    simp only [Rx.filled, Rx.floats, Bool.and_eq_true] at h hf
    obtain ⟨u, hu, lu⟩ := stands_shortest r h.1 hf.1
    obtain ⟨v, hv, lv⟩ := stands_shortest s h.2 hf.2
    rcases Nat.le_total r.shortest s.shortest with g | g
    · exact ⟨u, Or.inl hu, by simp only [Rx.shortest]; omega⟩
    · exact ⟨v, Or.inr hv, by simp only [Rx.shortest]; omega⟩
  | .rep r lo hi, h, hf => by
    simp only [Rx.filled, Bool.and_eq_true] at h
    obtain ⟨w, hw, lw⟩ := stands_shortest r h.1 hf
    obtain ⟨v, hv, lv⟩ := power_len hw lo
    exact ⟨v, ⟨lo, Nat.le_refl _, fun k e => by subst e; simpa using h.2, hv⟩, by rw [lv, lw]; rfl⟩

/-! ## longest -/

theorem mulTop_some {o hi : Option Nat} {n : Nat} (h : mulTop o hi = some n) : (o = some 0 ∧ n = 0) ∨ (hi = some 0 ∧ n = 0) ∨ ∃ a b, o = some a ∧ hi = some b ∧ n = a * b := by
  unfold mulTop at h
  split at h
  · exact Or.inl ⟨rfl, by simpa using h.symm⟩
  · exact Or.inr (Or.inl ⟨rfl, by simpa using h.symm⟩)
  · exact Or.inr (Or.inr ⟨_, _, rfl, rfl, by simpa using h.symm⟩)
  · simp at h

theorem mulTop_none {o hi : Option Nat} (h : mulTop o hi = none) : o ≠ some 0 ∧ hi ≠ some 0 ∧ (o = none ∨ hi = none) := by
  unfold mulTop at h
  split at h
  · simp at h
  · simp at h
  · simp at h
  · rename_i h1 h2 h3
    refine ⟨h1, h2, ?_⟩
    cases o with
    | none => exact Or.inl rfl
    | some a => cases hi with
      | none => exact Or.inr rfl
      | some b => exact absurd rfl (h3 a b rfl)

theorem iter_long {q : List Int} {r : Rx} {w : Nat} (h : ∀ i j, Den q r i j → j ≤ i + w) : ∀ (n i j : Nat), Iter (Den q r) n i j → j ≤ i + w * n
  | 0, i, j, e => by simp only [Iter] at e; omega
  | n + 1, i, j, ⟨k, h1, h2⟩ => by
    have := h i k h1
    have := iter_long h n k j h2
    rw [Nat.mul_succ]; omega

theorem addTop_some {a b : Option Nat} {n : Nat} (h : addTop a b = some n) : ∃ x y, a = some x ∧ b = some y ∧ n = x + y := by
  unfold addTop at h; split at h
  · exact ⟨_, _, rfl, rfl, by simpa using h.symm⟩
  · simp at h

theorem maxTop_some {a b : Option Nat} {n : Nat} (h : maxTop a b = some n) : ∃ x y, a = some x ∧ b = some y ∧ n = max x y := by
  unfold maxTop at h; split at h
  · exact ⟨_, _, rfl, rfl, by simpa using h.symm⟩
  · simp at h

theorem addTop_none {a b : Option Nat} (h : addTop a b = none) : a = none ∨ b = none := by
  cases a with
  | none => exact Or.inl rfl
  | some x => cases b with
    | none => exact Or.inr rfl
    | some y => simp [addTop] at h

theorem maxTop_none {a b : Option Nat} (h : maxTop a b = none) : a = none ∨ b = none := by
  cases a with
  | none => exact Or.inl rfl
  | some x => cases b with
    | none => exact Or.inr rfl
    | some y => simp [maxTop] at h

theorem den_longest (q : List Int) : ∀ (r : Rx) (i j n : Nat), r.longest = some n → Den q r i j → j ≤ i + n
  | .eps, i, j, n, e, h => by simp only [Den, Rx.longest, Option.some.injEq] at *; omega
  | .fail, i, j, n, e, h => by simp [Den] at h
  | .lit s, i, j, n, e, h => by simp only [Den, Rx.longest, Option.some.injEq] at *; omega
  | .cls p, i, j, n, e, h => by simp only [Den, Rx.longest, Option.some.injEq] at *; omega
  | .bos, i, j, n, e, h => by simp only [Den, Rx.longest, Option.some.injEq] at *; omega
  | .eol, i, j, n, e, h => by simp only [Den, Rx.longest, Option.some.injEq] at *; omega
  | .neg r, i, j, n, e, h => by simp only [Den, Rx.longest, Option.some.injEq] at *; omega
  | .seq r s, i, j, n, e, ⟨k, h1, h2⟩ => by
    obtain ⟨x, y, e1, e2, rfl⟩ := addTop_some e
    have := den_longest q r i k x e1 h1
    have := den_longest q s k j y e2 h2
    omega
  | .alt r s, i, j, n, e, h => by
    obtain ⟨x, y, e1, e2, rfl⟩ := maxTop_some e
    rcases h with h | h
    · have := den_longest q r i j x e1 h; omega
    · have := den_longest q s i j y e2 h; omega
  | .rep r lo hi, i, j, n, e, ⟨m, h1, h2, h3⟩ => by
    rcases mulTop_some e with ⟨e1, rfl⟩ | ⟨e1, rfl⟩ | ⟨a, b, e1, e2, rfl⟩
    · have := iter_long (fun i j => den_longest q r i j 0 e1) m i j h3
      omega
    · have := h2 0 e1
      have : m = 0 := by omega
      subst this
      simp only [Iter] at h3; omega
    · have h4 := iter_long (fun i j => den_longest q r i j a e1) m i j h3
      have h5 := Nat.mul_le_mul_left a (h2 b e2)
      omega

theorem stands_longest : ∀ r : Rx, r.filled = true → r.floats = true →
    (∀ n, r.longest = some n → ∃ w, r.Stands w ∧ w.length = n) ∧ (r.longest = none → ∀ k, ∃ w, r.Stands w ∧ k ≤ w.length)
  | .eps, _, _ => ⟨fun n e => ⟨[], rfl, by simpa [Rx.longest] using e⟩, fun e => by simp [Rx.longest] at e⟩
  | .fail, h, _ => by simp [Rx.filled] at h
  | .lit s, _, _ => ⟨fun n e => ⟨s, rfl, by simpa [Rx.longest] using e⟩, fun e => by simp [Rx.longest] at e⟩
  | .cls p, h, _ => by
    simp only [Rx.filled, List.any_eq_true] at h
    obtain ⟨c, _, hc⟩ := h
    exact ⟨fun n e => ⟨[c], ⟨c, rfl, hc⟩, by simpa [Rx.longest] using e⟩, fun e => by simp [Rx.longest] at e⟩
  | .seq r s, h, hf => by
    simp only [Rx.filled, Rx.floats, Bool.and_eq_true] at h hf
    obtain ⟨r1, r2⟩ := stands_longest r h.1 hf.1
    obtain ⟨s1, s2⟩ := stands_longest s h.2 hf.2
    constructor
    · intro n e
      obtain ⟨x, y, e1, e2, rfl⟩ := addTop_some e
      obtain ⟨u, hu, lu⟩ := r1 x e1
      obtain ⟨v, hv, lv⟩ := s1 y e2
      exact ⟨u ++ v, ⟨u, v, rfl, hu, hv⟩, by simp [lu, lv]⟩
    · intro e k
      rcases addTop_none e with e | e
      · obtain ⟨u, hu, lu⟩ := r2 e k
        obtain ⟨v, hv⟩ := stands_some s h.2 hf.2
        exact ⟨u ++ v, ⟨u, v, rfl, hu, hv⟩, by simp; omega⟩
      · obtain ⟨u, hu⟩ := stands_some r h.1 hf.1
        obtain ⟨v, hv, lv⟩ := s2 e k
        exact ⟨u ++ v, ⟨u, v, rfl, hu, hv⟩, by simp; omega⟩
  | .alt r s, h, hf => by
    simp only [Rx.filled, Rx.floats, Bool.and_eq_true] at h hf
    obtain ⟨r1, r2⟩ := stands_longest r h.1 hf.1
    obtain ⟨s1, s2⟩ := stands_longest s h.2 hf.2
    constructor
    · intro n e
      obtain ⟨x, y, e1, e2, rfl⟩ := maxTop_some e
      obtain ⟨u, hu, lu⟩ := r1 x e1
      obtain ⟨v, hv, lv⟩ := s1 y e2
      rcases Nat.le_total x y with g | g
      · exact ⟨v, Or.inr hv, by omega⟩
      · exact ⟨u, Or.inl hu, by omega⟩
    · intro e k
      rcases maxTop_none e with e | e
      · obtain ⟨u, hu, lu⟩ := r2 e k
        exact ⟨u, Or.inl hu, lu⟩
      · obtain ⟨v, hv, lv⟩ := s2 e k
        exact ⟨v, Or.inr hv, lv⟩
  | .rep r lo hi, h, hf => by
    simp only [Rx.filled, Bool.and_eq_true] at h
    have hf' : r.floats = true := hf
    obtain ⟨r1, r2⟩ := stands_longest r h.1 hf'
    have hlo : ∀ k, hi = some k → lo ≤ k := fun k e => by subst e; simpa using h.2
    constructor
    · intro n e
      rcases mulTop_some e with ⟨e1, rfl⟩ | ⟨e1, rfl⟩ | ⟨a, b, e1, e2, rfl⟩
      · obtain ⟨u, hu, lu⟩ := r1 0 e1
        obtain ⟨v, hv, lv⟩ := power_len hu lo
        exact ⟨v, ⟨lo, Nat.le_refl _, hlo, hv⟩, by rw [lv, lu]; omega⟩
      · exact ⟨[], ⟨0, hlo 0 e1, fun k _ => Nat.zero_le _, rfl⟩, rfl⟩
      · obtain ⟨u, hu, lu⟩ := r1 a e1
        obtain ⟨v, hv, lv⟩ := power_len hu b
        exact ⟨v, ⟨b, hlo b e2, fun k e => by rw [e2] at e; cases e; exact Nat.le_refl _, hv⟩, by rw [lv, lu]⟩
    · intro e k
      obtain ⟨e1, e2, e3⟩ := mulTop_none e
      -- a text of length at least `x`, repeated `y` times
      have big : ∀ x y, lo ≤ y → (∀ b, hi = some b → y ≤ b) → (∃ w, r.Stands w ∧ x ≤ w.length) → ∃ w, (Rx.rep r lo hi).Stands w ∧ x * y ≤ w.length := by
        rintro x y h1 h2 ⟨w, hw, hl⟩
        obtain ⟨v, hv, lv⟩ := power_len hw y
        exact ⟨v, ⟨y, h1, h2, hv⟩, by rw [lv]; exact Nat.mul_le_mul_right y hl⟩
      cases hr : r.longest with
      | none =>
        cases hi with
        | none =>
          obtain ⟨w, hw, hl⟩ := big k (lo + 1) (by omega) (fun b e => by cases e) (r2 hr k)
          exact ⟨w, hw, by rw [Nat.mul_succ] at hl; omega⟩
        | some b =>
          have hb : b ≠ 0 := fun g => e2 (by rw [g])
          obtain ⟨w, hw, hl⟩ := big k b (hlo b rfl) (fun c e => by cases e; exact Nat.le_refl _) (r2 hr k)
          exact ⟨w, hw, Nat.le_trans (Nat.le_mul_of_pos_right k (by omega)) hl⟩
      | some a =>
        have ha : a ≠ 0 := fun g => e1 (by rw [hr, g])
        have hn : hi = none := by rcases e3 with e | e
                                  · rw [hr] at e; cases e
                                  · exact e
        obtain ⟨u, hu, lu⟩ := r1 a hr
        obtain ⟨w, hw, hl⟩ := big a (lo + k) (by omega) (fun b e => by rw [hn] at e; cases e) ⟨u, hu, by omega⟩
        refine ⟨w, hw, Nat.le_trans ?_ hl⟩
        have := Nat.le_mul_of_pos_left (lo + k) (show 0 < a by omega)
        omega

/-! ## the largest size of the compiled tree -/

mutual
/-- The largest size computed for the tree after the heuristics (which remove alternations of one alternative). -/
def peak : Node → Nat
  | .exact s _ => wrap32 s.length
  | .range .. | .space | .word | .any => 1
  | .bos => 0
  | .eol => 1
  | .negated m => minSize m
  | .simple m cs => wrap32 (peak m + listMax (minSizes cs))
  | .alt [c] => peak c
  | .alt cs => listMax (minSizes cs)
  | .greedy m _ hi cs | .lazy m _ hi cs | .possessive m _ hi cs =>
    if hi = umax then umax else wrap32 ((wrap32 (peak m * hi) : Nat) + listMax (peaks cs))
  | .repeated m n _ => wrap32 (peak m * n)
  | .group m _ _ => peak m
def peaks : List Node → List Nat
  | [] => []
  | c :: cs => peak c :: peaks cs
end

theorem listMax_lt {b : Nat} (hb : 0 < b) : ∀ {l : List Nat}, (∀ x ∈ l, x < b) → listMax l < b
  | [], _ => hb
  | x :: l, h => by
    have h1 := h x (by simp)
    have h2 := listMax_lt hb (l := l) (fun y hy => h y (by simp [hy]))
    simp only [listMax]; omega

mutual
theorem peak_lt : ∀ t : Node, peak t < 4294967296
  | .exact s _ => by simp only [peak]; exact wrap32_lt _
  | .range .. => by simp [peak]
  | .space => by simp [peak]
  | .word => by simp [peak]
  | .any => by simp [peak]
  | .bos => by simp [peak]
  | .eol => by simp [peak]
  | .negated m => by simp only [peak]; exact minSize_lt m
  | .simple m cs => by simp only [peak]; exact wrap32_lt _
  | .alt [] => by simp [peak, minSizes, listMax]
  | .alt [c] => by simp only [peak]; exact peak_lt c
  | .alt (c :: d :: cs) => by simp only [peak]; exact listMax_lt (by decide) (minSizes_lt _)
  | .greedy m _ hi cs => by
    simp only [peak]; split
    · decide
    · exact wrap32_lt _
  | .lazy m _ hi cs => by
    simp only [peak]; split
    · decide
    · exact wrap32_lt _
  | .possessive m _ hi cs => by
    simp only [peak]; split
    · decide
    · exact wrap32_lt _
  | .repeated m n cs => by simp only [peak]; exact wrap32_lt _
  | .group m _ cs => by simp only [peak]; exact peak_lt m
end

theorem peak_simple_nil (m : Node) : peak (.simple m []) = peak m := by
  simp only [peak, minSizes, listMax]
  have := wrap32_id (peak_lt m)
  simpa using this

mutual
/-- After a round of the heuristics the largest size is `peak`. -/
theorem max_opt : ∀ (t : Node) (inj : List (List Int)), maxSize (opt t inj) = peak t
  | .exact s _, _ => by simp [opt, maxSize, peak]
  | .range .., _ => by simp [opt, maxSize, peak]
  | .space, _ => by simp [opt, maxSize, peak]
  | .word, _ => by simp [opt, maxSize, peak]
  | .any, _ => by simp [opt, maxSize, peak]
  | .bos, _ => by simp [opt, maxSize, peak]
  | .eol, _ => by simp [opt, maxSize, peak]
  | .negated m, _ => by simp only [opt, maxSize, peak]; exact minSize_opt m []
  | .simple m [], inj => by rw [opt, peak_simple_nil]; exact max_opt m inj
  | .simple m (c :: cs), inj => by
    simp only [opt, maxSize, peak, minSizes, max_opt m inj, minSize_opt c [], minSizes_opts cs]
  | .alt [], _ => by simp [opt, maxSize, peak]
  | .alt [c], inj => by simp only [opt, peak]; exact max_opt c inj
  | .alt (c :: d :: cs), inj => by
    simp only [opt, maxSize, peak, minSizes, minSize_opt c [], minSize_opt d [], minSizes_opts cs]
  | .greedy m lo hi cs, inj => by
    simp only [opt]; split <;> simp only [maxSize, peak, max_opt m [], maxs_opts cs]
  | .lazy m lo hi cs, inj => by
    simp only [opt]; split <;> simp only [maxSize, peak, max_opt m [], maxs_opts cs]
  | .possessive m lo hi cs, inj => by simp only [opt, maxSize, peak, max_opt m [], maxs_opts cs]
  | .repeated m n cs, inj => by simp only [opt, maxSize, peak, max_opt m []]
  | .group m idx cs, inj => by simp only [opt, maxSize, peak, max_opt m _]
theorem maxs_opts : ∀ (cs : List Node), maxSizes (opts cs) = peaks cs
  | [] => by simp [opts, maxSizes, peaks]
  | c :: cs => by simp only [opts, maxSizes, peaks, max_opt c [], maxs_opts cs]
end

mutual
theorem peak_opt : ∀ (t : Node) (inj : List (List Int)), peak (opt t inj) = peak t
  | .exact s _, _ => by simp [opt, peak]
  | .range .., _ => by simp [opt, peak]
  | .space, _ => by simp [opt]
  | .word, _ => by simp [opt]
  | .any, _ => by simp [opt]
  | .bos, _ => by simp [opt]
  | .eol, _ => by simp [opt]
  | .negated m, _ => by simp only [opt, peak]; exact minSize_opt m []
  | .simple m [], inj => by rw [opt, peak_simple_nil]; exact peak_opt m inj
  | .simple m (c :: cs), inj => by
    simp only [opt, peak, minSizes, peak_opt m inj, minSize_opt c [], minSizes_opts cs]
  | .alt [], _ => by simp [opt]
  | .alt [c], inj => by simp only [opt, peak]; exact peak_opt c inj
  | .alt (c :: d :: cs), inj => by
    simp only [opt, peak, minSizes, minSize_opt c [], minSize_opt d [], minSizes_opts cs]
  | .greedy m lo hi cs, inj => by
    simp only [opt]; split <;> simp only [peak, peak_opt m [], peaks_opts cs]
  | .lazy m lo hi cs, inj => by
    simp only [opt]; split <;> simp only [peak, peak_opt m [], peaks_opts cs]
  | .possessive m lo hi cs, inj => by simp only [opt, peak, peak_opt m [], peaks_opts cs]
  | .repeated m n cs, inj => by simp only [opt, peak, peak_opt m []]
  | .group m idx cs, inj => by simp only [opt, peak, peak_opt m _]
theorem peaks_opts : ∀ (cs : List Node), peaks (opts cs) = peaks cs
  | [] => by simp [opts]
  | c :: cs => by simp only [opts, peaks, peak_opt c [], peaks_opts cs]
end

theorem rounds_peak : ∀ (k : Nat) (t : Node), peak (rounds k t) = peak t
  | 0, _ => rfl
  | k + 1, t => by rw [rounds, rounds_peak k, peak_opt]

/-- The largest size of what follows. -/
def optPeak (o : Option Node) : Nat := o.elim 0 peak

theorem optPeak_lt (o : Option Node) : optPeak o < 4294967296 := by
  cases o with
  | none => decide
  | some c => exact peak_lt c

theorem wrap_mod (n : Nat) : wrap32 (n : Int) = n % 4294967296 := by unfold wrap32; omega

theorem wrap_mod_add (a b : Nat) : wrap32 ((a : Int) + (b : Int)) = (a + b) % 4294967296 := by unfold wrap32; omega

theorem wrap_mod_mul (a b : Nat) : wrap32 ((a : Int) * (b : Int)) = (a * b) % 4294967296 := by rw [← Int.natCast_mul]; exact wrap_mod _

theorem atom_group {a : Atom} {gi : Nat} {m : Node} (e : (a.tree gi).1 = .group m gi []) : ∃ as, a = .group true as := by
  cases a with
  | group c as => cases c with
    | true => exact ⟨as, rfl⟩
    | false => simp [Atom.tree] at e
  | cls neg items dash => cases neg <;> simp [Atom.tree] at e
  | _ => simp [Atom.tree] at e

theorem quant_peak (n : Node) (a : Atom) (q : Quant) (ha : (∃ m, n = .simple m [] ∧ closes a .once = false) ∨
    (∃ m gi, n = .group m gi [] ∧ closes a .once = true)) (s : Sq) (o : Option Node) (ho : optPeak o = s.crest) (hs : optMin o = s.gauge) (hn : peak n = a.crest) :
    peak (graft (quantTree n q) o) = (Sq.cons a q s).crest := by
  have two : ∀ h, wrap32 (((wrap32 ((peak n : Int) * (h : Nat)) : Nat) : Int) + ((optPeak o : Nat) : Int)) = (a.crest * h + s.crest) % 4294967296 := fun h => by
    rw [wrap_mod_mul, wrap_mod_add, hn, ho]; omega
  have node : ∀ (p : QMode) lo hi, peak (graft ((polOf p).node n lo hi) o) = if hi = umax then umax else (a.crest * hi + s.crest) % 4294967296 := fun p lo hi => by
    rw [← two hi]
    cases o with
    | none => cases p <;> simp [polOf, Policy.node, graft, peak, peaks, listMax, optPeak]
    | some c => cases p <;> simp [polOf, Policy.node, graft, addChild, peak, peaks, listMax, optPeak]
  cases q with
  | once =>
    rcases ha with ⟨m, rfl, h2⟩ | ⟨m, gi, rfl, h2⟩
    · simp only [Sq.crest, h2, Bool.false_eq_true, if_false, quantTree]
      rw [peak_simple_nil] at hn
      rw [← hn, ← hs]
      cases o with
      | none => rw [graft, peak_simple_nil]; simp only [optMin, Option.elim, Nat.add_zero]; rw [Nat.mod_eq_of_lt (peak_lt m)]
      | some c => simp only [graft, addChild, Option.getD_some, List.nil_append, peak, minSizes, listMax, optMin, Option.elim, Nat.max_zero]; exact wrap_mod_add _ _
    · simp only [Sq.crest, h2, if_true, quantTree, Quant.lo, Nat.mul_one]
      rw [Nat.mod_eq_of_lt (by rw [← hn]; exact peak_lt _), ← hn]
      cases o with
      | none => rfl
      | some c => simp [graft, addChild, peak]
  | exact k m =>
    have : closes a (.exact k m) = true := by cases a <;> rfl
    simp only [Sq.crest, this, if_true, quantTree, Quant.lo]
    rw [← hn, ← wrap_mod_mul]
    cases o with
    | none => rfl
    | some c => simp [graft, addChild, peak]
  | star m =>
    have : closes a (.star m) = false := by cases a <;> rfl
    simp only [Sq.crest, this, quantTree, Quant.hi, node]; simp [umax]
  | plus m =>
    have : closes a (.plus m) = false := by cases a <;> rfl
    simp only [Sq.crest, this, quantTree, Quant.hi, node]; simp [umax]
  | opt m =>
    have : closes a (.opt m) = false := by cases a <;> rfl
    simp only [Sq.crest, this, quantTree, Quant.hi, node]; simp [umax]
  | atLeast k m =>
    have : closes a (.atLeast k m) = false := by cases a <;> rfl
    simp only [Sq.crest, this, quantTree, Quant.hi, node]; simp [umax]
  | between k l m =>
    have : closes a (.between k l m) = false := by cases a <;> rfl
    simp only [Sq.crest, this, quantTree, Quant.hi, node, Bool.false_eq_true, if_false]; rfl

theorem esc_peak {c : Int} (h : escB c = true) : peak ((terminalOf [92, c]).getD .any) = 1 := by
  obtain ⟨t, ht, h1⟩ := esc_terminal c h
  rw [ht]
  rcases h1 with ⟨rfl, _⟩ | ⟨rfl | ⟨s, rfl⟩ | ⟨x, s, rfl⟩, _⟩ <;> rfl

theorem item_peak {i : Item} (h : i.ok = true) : peak (itemTree i) = 1 := by
  cases i with
  | chr c => rfl
  | esc c => exact (peak_simple_nil _).trans (esc_peak h)
  | rng a b => rfl

theorem listMax_ones : ∀ l : List Node, l ≠ [] → (∀ n ∈ l, minSize n = 1) → listMax (minSizes l) = 1
  | [c], _, h => by simp [minSizes, listMax, h c (by simp)]
  | c :: d :: l, _, h => by
    have := listMax_ones (d :: l) (by simp) (fun n hn => h n (by simp only [List.mem_cons] at hn ⊢; exact Or.inr hn))
    simp only [minSizes, listMax, h c (by simp)] at this ⊢
    omega

theorem class_peak {items : List Item} (h : items.all Item.ok = true) (dash : Bool) (hne : (!items.isEmpty || dash) = true) :
    peak (.alt (classTrees items dash)) = 1 := by
  have hm : ∀ n ∈ classTrees items dash, minSize n = 1 ∧ peak n = 1 := by
    intro n hn
    simp only [classTrees, List.mem_append, List.mem_map] at hn
    rcases hn with ⟨i, hi, rfl⟩ | hn
    · exact ⟨item_one (List.all_eq_true.1 h i hi), item_peak (List.all_eq_true.1 h i hi)⟩
    · cases dash with
      | false => simp at hn
      | true => simp at hn; subst hn; exact ⟨rfl, rfl⟩
  have hn : classTrees items dash ≠ [] := by
    cases items <;> cases dash <;> simp_all [classTrees]
  generalize classTrees items dash = l at hm hn
  match l, hn with
  | [c], _ => simp only [peak]; exact (hm c (by simp)).2
  | c :: d :: l, _ => simp only [peak]; exact listMax_ones _ (by simp) (fun n hn => (hm n hn).1)

theorem broadest_trees : ∀ (as : Alts), as.ok = true → as.bulk < 4294967296 → ∀ gi, listMax (minSizes (as.trees gi)) = as.broadest
  | .last hat s, h, hb, gi => by
    simp only [Alts.ok, Bool.and_eq_true] at h
    have := piece_gauge hat s h.1 h.2 (by simpa [Alts.bulk] using hb) gi
    unfold pieceTree at this
    simp only [Alts.trees, minSizes, listMax, Alts.broadest, this, Nat.max_zero]
  | .more hat s as, h, hb, gi => by
    simp only [Alts.ok, Bool.and_eq_true] at h
    simp only [Alts.bulk] at hb
    have h1 := piece_gauge hat s h.1.1 h.1.2 (by omega) gi
    unfold pieceTree at h1
    simp only [Alts.trees, minSizes, listMax, Alts.broadest, h1, broadest_trees as h.2 (by omega) gi]

theorem broadest_tops : ∀ (as : Alts), as.ok = true → as.bulk < 4294967296 → ∀ gi, listMax (minSizes (as.tops gi)) = as.broadest
  | .last hat s, h, hb, gi => by
    simp only [Alts.ok, Bool.and_eq_true] at h
    have := piece_gauge hat s h.1 h.2 (by simpa [Alts.bulk] using hb) gi
    simp only [Alts.tops, minSizes, listMax, Alts.broadest, this, Nat.max_zero]
  | .more hat s as, h, hb, gi => by
    simp only [Alts.ok, Bool.and_eq_true] at h
    simp only [Alts.bulk] at hb
    have h1 := piece_gauge hat s h.1.1 h.1.2 (by omega) gi
    simp only [Alts.tops, minSizes, listMax, Alts.broadest, h1, broadest_tops as h.2 (by omega) _]

theorem peak_alt {l : List Node} (h : 2 ≤ l.length) : peak (.alt l) = listMax (minSizes l) := by
  match l, h with
  | c :: d :: l, _ => simp only [peak]

mutual
theorem atom_crest : ∀ (a : Atom), a.ok = true → a.bulk < 4294967296 → ∀ gi, peak (a.tree gi).1 = a.crest
  | .chr _, _, _, _ | .dot, _, _, _ | .hex .., _, _, _ | .oct .., _, _, _ => rfl
  | .esc c, h, _, _ => by
    simp only [Atom.tree, peak_simple_nil, Atom.crest]; exact esc_peak h
  | .cls neg items dash, h, _, _ => by
    simp only [Atom.ok, Bool.and_eq_true] at h
    have h1 := class_one h.1 dash h.2
    cases neg with
    | false => simp only [Atom.tree, peak_simple_nil, Atom.crest]; exact class_peak h.1 dash h.2
    | true => simp only [Atom.tree, peak_simple_nil, Atom.crest, peak]; simpa [minSize] using h1
  | .group capture as, h, hb, gi => by
    have h0 : as.ok = true := by simpa [Atom.ok] using h
    have hb' : as.bulk < 4294967296 := by simpa [Atom.bulk] using hb
    cases capture with
    | false => simp only [Atom.tree, peak_simple_nil, Atom.crest]; exact trees_crest as h0 hb' gi
    | true => simp only [Atom.tree, peak, Atom.crest]; exact trees_crest as h0 hb' (gi + 1)
theorem sq_crest : ∀ (s : Sq), s.ok = true → s.bulk < 4294967296 → ∀ gi, optPeak (s.tree gi) = s.crest
  | .nil dollar, _, _, _ => by cases dollar <;> rfl
  | .cons a q s, h, hb, gi => by
    simp only [Sq.ok, Bool.and_eq_true] at h
    simp only [Sq.bulk, Nat.mul_add, Nat.mul_one] at hb
    have ha := atom_crest a h.1.1 (by omega) gi
    have hs := sq_crest s h.2 (by omega) (a.tree gi).2
    have hg := sq_gauge s h.2 (by omega) (a.tree gi).2
    show peak (graft (quantTree (a.tree gi).1 q) (s.tree (a.tree gi).2)) = _
    exact quant_peak _ a q (by
      rcases atom_shapes a gi with ⟨m, h1, h2⟩ | ⟨m, h1, h2⟩
      · exact Or.inl ⟨m, h1, h2⟩
      · exact Or.inr ⟨m, gi, h1, h2⟩) s _ hs hg ha
theorem piece_crest : ∀ (hat : Bool) (s : Sq), s.ok = true → (hat || !s.empty) = true → s.bulk < 4294967296 → ∀ gi,
    peak (pieceTree hat s gi) = if hat then s.gauge else s.crest
  | true, s, h, _, hb, gi => by
    have hs := sq_gauge s h hb gi
    simp only [pieceTree, if_true]
    cases ht : s.tree gi with
    | none => rw [ht] at hs; rw [← hs]; rfl
    | some c =>
      rw [ht] at hs
      have hs' : minSize c = s.gauge := hs
      simp only [graft, addChild, Option.getD_some, List.nil_append, peak, minSizes, listMax, hs', Nat.max_zero]
      rw [wrap_mod_add]
      have := minSize_lt c
      omega
  | false, s, h, he, hb, gi => by
    have hs := sq_crest s h hb gi
    cases ht : s.tree gi with
    | none => cases s with
      | nil d => cases d <;> simp [Sq.tree, Sq.empty] at ht he
      | cons => simp [Sq.tree] at ht
    | some n => rw [ht] at hs; simpa [pieceTree, ht, optPeak] using hs
theorem trees_crest : ∀ (as : Alts), as.ok = true → as.bulk < 4294967296 → ∀ gi, peak (.alt (as.trees gi)) = as.crest
  | .last hat s, h, hb, gi => by
    simp only [Alts.ok, Bool.and_eq_true] at h
    have := piece_crest hat s h.1 h.2 (by simpa [Alts.bulk] using hb) gi
    simp only [Alts.trees, peak, Alts.crest]; unfold pieceTree at this; exact this
  | .more hat s as, h, hb, gi => by
    rw [peak_alt (by cases as <;> simp [Alts.trees]), broadest_trees _ h hb gi]; rfl
end

theorem tree_crest : ∀ (as : Alts), as.ok = true → as.bulk < 4294967296 → peak as.tree = as.crest
  | .last hat s, h, hb => by
    simp only [Alts.ok, Bool.and_eq_true] at h
    have := piece_crest hat s h.1 h.2 (by simpa [Alts.bulk] using hb) 0
    simp only [Alts.tree, Alts.tops, peak, Alts.crest, this]
  | .more hat s as, h, hb => by
    rw [Alts.tree, peak_alt (by cases as <;> simp [Alts.tops]), broadest_tops _ h hb 0]; rfl

end ERegex

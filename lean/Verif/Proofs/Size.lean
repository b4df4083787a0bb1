import Verif.Proofs.Denote
import Verif.Proofs.ParseInv
/-!
# The minimum match size is a lower bound

All arithmetic is `unsigned` (modulo `2^32`); wrapping only makes the bound smaller.
-/
set_option autoImplicit false
namespace ERegex
open Spec

mutual
/-- Under every negated class there is nothing of minimum size above 1. -/
def negOk : Node → Bool
  | .exact .. | .range .. | .space | .word | .any | .bos | .eol => true
  | .negated m => decide (minSize m ≤ 1)
  | .simple m cs | .greedy m _ _ cs | .lazy m _ _ cs | .possessive m _ _ cs | .repeated m _ cs | .group m _ cs =>
    negOk m && negOks cs
  | .alt cs => negOks cs
/-- … in a children pack. -/
def negOks : List Node → Bool
  | [] => true
  | c :: cs => negOk c && negOks cs
end

theorem wrap32_le (n : Int) (h : 0 ≤ n) : (wrap32 n : Int) ≤ n := by
  simp only [wrap32]; omega

theorem listMin_le : ∀ {l : List Nat} {x : Nat}, x ∈ l → listMin l ≤ x
  | [y], x, h => by simp at h; simp [listMin, h]
  | y :: z :: l, x, h => by
    simp only [listMin]
    rcases List.mem_cons.1 h with rfl | h
    · exact Nat.min_le_left _ _
    · exact Nat.le_trans (Nat.min_le_right _ _) (listMin_le h)

theorem minSizes_eq : ∀ cs : List Node, minSizes cs = cs.map minSize
  | [] => by simp [minSizes]
  | c :: cs => by simp [minSizes, minSizes_eq cs]

/-- `n` steps of width at least `w`. -/
theorem iter_min {R : Nat → Nat → Prop} {w : Nat} (h : ∀ i j, R i j → i + w ≤ j) : ∀ (n i j : Nat), Iter R n i j → i + w * n ≤ j
  | 0, i, j, e => by simp only [Iter] at e; omega
  | n + 1, i, j, ⟨k, h1, h2⟩ => by
    have := h i k h1
    have := iter_min h n k j h2
    rw [Nat.mul_succ]; omega

theorem rep_min {q : List Int} {r : Rx} {w lo i j : Nat} {hi : Option Nat} (h : ∀ i j, Den q r i j → i + w ≤ j)
    (hd : Den q (.rep r lo hi) i j) : i + w * lo ≤ j := by
  obtain ⟨n, hn, _, hit⟩ := hd
  have h1 := iter_min h n i j hit
  have h2 := Nat.mul_le_mul_left w hn
  omega

/-- The continuation. -/
theorem cont_min {q : List Int} {cs : List Node} (h : ∀ c ∈ cs, ∀ i j, Den q (toRx c) i j → i + minSize c ≤ j) {i j : Nat}
    (hd : Den q (contOf (toRxs cs)) i j) : i + listMin (minSizes cs) ≤ j := by
  by_cases he : cs = []
  · subst he
    rw [den_cont_nil] at hd
    simp [minSizes, listMin, hd]
  · rw [den_cont q he] at hd
    obtain ⟨c, hc, hd⟩ := hd
    have h1 := h c hc i j hd
    have h2 : listMin (minSizes cs) ≤ minSize c := listMin_le (by rw [minSizes_eq]; exact List.mem_map_of_mem hc)
    omega

mutual
/-- Nothing denoted by the tree is shorter than its minimum match size. -/
theorem min_den (q : List Int) : ∀ (t : Node), negOk t = true → ∀ i j, Den q (toRx t) i j → i + minSize t ≤ j
  | .exact s _, _, i, j, h => by
    simp only [toRx, Den] at h
    have := wrap32_le s.length (by omega)
    simp only [minSize]; omega
  | .range .., _, i, j, h => by simp only [toRx, Den] at h; simp only [minSize]; omega
  | .space, _, i, j, h => by simp only [toRx, Den] at h; simp only [minSize]; omega
  | .word, _, i, j, h => by simp only [toRx, Den] at h; simp only [minSize]; omega
  | .any, _, i, j, h => by simp only [toRx, Den] at h; simp only [minSize]; omega
  | .bos, _, i, j, h => by simp only [toRx, Den] at h; simp only [minSize]; omega
  | .eol, _, i, j, h => by simp only [toRx, Den] at h; simp only [minSize]; omega
  | .negated m, hn, i, j, h => by
    simp only [toRx, Den] at h
    simp only [negOk, decide_eq_true_eq] at hn
    simp only [minSize]; omega
  | .simple m cs, hn, i, j, h => by
    simp only [toRx, Den] at h
    simp only [negOk, Bool.and_eq_true] at hn
    obtain ⟨k, h1, h2⟩ := h
    have e1 := min_den q m hn.1 i k h1
    have e2 := cont_min (mins_den q cs hn.2) h2
    have := wrap32_le (minSize m + listMin (minSizes cs)) (by omega)
    simp only [minSize]; omega
  | .alt cs, hn, i, j, h => by
    simp only [toRx] at h
    simp only [negOk] at hn
    have e2 := cont_min (mins_den q cs hn) h
    simp only [minSize]; omega
  | .greedy m lo hi cs, hn, i, j, h => by
    simp only [toRx, Den] at h
    simp only [negOk, Bool.and_eq_true] at hn
    obtain ⟨k, h1, h2⟩ := h
    have e1 := rep_min (min_den q m hn.1) h1
    have e2 := cont_min (mins_den q cs hn.2) h2
    have e3 := wrap32_le (wrap32 (minSize m * lo) + listMin (minSizes cs)) (by omega)
    have e4 := wrap32_le (minSize m * lo) (by omega)
    simp only [minSize]; omega
  | .lazy m lo hi cs, hn, i, j, h => by
    simp only [toRx, Den] at h
    simp only [negOk, Bool.and_eq_true] at hn
    obtain ⟨k, h1, h2⟩ := h
    have e1 := rep_min (min_den q m hn.1) h1
    have e2 := cont_min (mins_den q cs hn.2) h2
    have e3 := wrap32_le (wrap32 (minSize m * lo) + listMin (minSizes cs)) (by omega)
    have e4 := wrap32_le (minSize m * lo) (by omega)
    simp only [minSize]; omega
  | .possessive m lo hi cs, hn, i, j, h => by
    simp only [toRx, Den] at h
    simp only [negOk, Bool.and_eq_true] at hn
    obtain ⟨k, h1, h2⟩ := h
    have e1 := rep_min (min_den q m hn.1) h1
    have e2 := cont_min (mins_den q cs hn.2) h2
    have e3 := wrap32_le (wrap32 (minSize m * lo) + listMin (minSizes cs)) (by omega)
    have e4 := wrap32_le (minSize m * lo) (by omega)
    simp only [minSize]; omega
  | .repeated m n cs, hn, i, j, h => by
    simp only [toRx, Den] at h
    simp only [negOk, Bool.and_eq_true] at hn
    obtain ⟨k, h1, h2⟩ := h
    have e1 := rep_min (min_den q m hn.1) h1
    have e2 := cont_min (mins_den q cs hn.2) h2
    have e4 := wrap32_le (minSize m * n) (by omega)
    simp only [minSize]; omega
  | .group m idx cs, hn, i, j, h => by
    simp only [toRx, Den] at h
    simp only [negOk, Bool.and_eq_true] at hn
    obtain ⟨k, h1, h2⟩ := h
    have e1 := min_den q m hn.1 i k h1
    have e2 := cont_min (mins_den q cs hn.2) h2
    simp only [minSize]; omega
theorem mins_den (q : List Int) : ∀ (cs : List Node), negOks cs = true → ∀ c ∈ cs, ∀ i j, Den q (toRx c) i j → i + minSize c ≤ j
  | [], _, c, hc, _, _, _ => by simp at hc
  | c :: cs, hn, x, hx, i, j, h => by
    simp only [negOks, Bool.and_eq_true] at hn
    rcases List.mem_cons.1 hx with h' | hx
    · rw [h'] at h ⊢; exact min_den q c hn.1 i j h
    · exact mins_den q cs hn.2 x hx i j h
end

/-! ## The condition holds of every compiled pattern -/

theorem wrap32_lt (n : Int) : wrap32 n < 4294967296 := by simp only [wrap32]; omega
theorem wrap32_id {n : Nat} (h : n < 4294967296) : wrap32 (n : Int) = n := by simp only [wrap32]; omega

theorem listMin_lt {b : Nat} (hb : 0 < b) : ∀ {l : List Nat}, (∀ x ∈ l, x < b) → listMin l < b
  | [], _ => hb
  | [x], h => h x (by simp)
  | x :: y :: l, h => by
    simp only [listMin]
    exact Nat.lt_of_le_of_lt (Nat.min_le_left _ _) (h x (by simp))

mutual
theorem minSize_lt : ∀ t : Node, minSize t < 4294967296
  | .exact s _ => by simp only [minSize]; exact wrap32_lt _
  | .range .. => by simp [minSize]
  | .space => by simp [minSize]
  | .word => by simp [minSize]
  | .any => by simp [minSize]
  | .bos => by simp [minSize]
  | .eol => by simp [minSize]
  | .negated m => by simp only [minSize]; exact minSize_lt m
  | .simple m cs => by simp only [minSize]; exact wrap32_lt _
  | .alt cs => by simp only [minSize]; exact listMin_lt (by decide) (minSizes_lt cs)
  | .greedy m _ _ cs => by simp only [minSize]; exact wrap32_lt _
  | .lazy m _ _ cs => by simp only [minSize]; exact wrap32_lt _
  | .possessive m _ _ cs => by simp only [minSize]; exact wrap32_lt _
  | .repeated m n cs => by simp only [minSize]; exact wrap32_lt _
  | .group m _ cs => by simp only [minSize]; exact minSize_lt m
theorem minSizes_lt : ∀ cs : List Node, ∀ x ∈ minSizes cs, x < 4294967296
  | [], x, h => by simp [minSizes] at h
  | c :: cs, x, h => by
    simp only [minSizes, List.mem_cons] at h
    rcases h with h | h
    · rw [h]; exact minSize_lt c
    · exact minSizes_lt cs x h
end

theorem minSize_simple_nil (m : Node) : minSize (.simple m []) = minSize m := by
  simp only [minSize, minSizes, listMin]
  have := wrap32_id (minSize_lt m)
  simpa using this

mutual
/-- The heuristics keep the minimum size. -/
theorem minSize_opt : ∀ (t : Node) (inj : List (List Int)), minSize (opt t inj) = minSize t
  | .exact s _, _ => by simp [opt, minSize]
  | .range .., _ => by simp [opt, minSize]
  | .space, _ => by simp [opt]
  | .word, _ => by simp [opt]
  | .any, _ => by simp [opt]
  | .bos, _ => by simp [opt]
  | .eol, _ => by simp [opt]
  | .negated m, _ => by simp only [opt, minSize]; exact minSize_opt m []
  | .simple m [], inj => by rw [opt, minSize_simple_nil]; exact minSize_opt m inj
  | .simple m (c :: cs), inj => by
    simp only [opt, minSize, minSizes, minSize_opt m inj, minSize_opt c [], minSizes_opts cs]
  | .alt [], _ => by simp [opt]
  | .alt [c], inj => by
    simp only [opt, minSize, minSizes, listMin]; exact minSize_opt c inj
  | .alt (c :: d :: cs), inj => by
    simp only [opt, minSize, minSizes, minSize_opt c [], minSize_opt d [], minSizes_opts cs]
  | .greedy m lo hi cs, inj => by
    simp only [opt]; split <;> simp only [minSize, minSize_opt m [], minSizes_opts cs]
  | .lazy m lo hi cs, inj => by
    simp only [opt]; split <;> simp only [minSize, minSize_opt m [], minSizes_opts cs]
  | .possessive m lo hi cs, inj => by simp only [opt, minSize, minSize_opt m [], minSizes_opts cs]
  | .repeated m n cs, inj => by simp only [opt, minSize, minSize_opt m []]
  | .group m idx cs, inj => by simp only [opt, minSize, minSize_opt m _]
theorem minSizes_opts : ∀ (cs : List Node), minSizes (opts cs) = minSizes cs
  | [] => by simp [opts]
  | c :: cs => by simp only [opts, minSizes, minSize_opt c [], minSizes_opts cs]
end

mutual
theorem negOk_opt : ∀ (t : Node) (inj : List (List Int)), negOk t = true → negOk (opt t inj) = true
  | .exact s _, _, _ => by simp [opt, negOk]
  | .range .., _, _ => by simp [opt, negOk]
  | .space, _, _ => by simp [opt, negOk]
  | .word, _, _ => by simp [opt, negOk]
  | .any, _, _ => by simp [opt, negOk]
  | .bos, _, _ => by simp [opt, negOk]
  | .eol, _, _ => by simp [opt, negOk]
  | .negated m, _, h => by simpa [opt, negOk, minSize_opt] using h
  | .simple m [], inj, h => by
    simp only [negOk, negOks, Bool.and_true] at h
    rw [opt]; exact negOk_opt m inj h
  | .simple m (c :: cs), inj, h => by
    simp only [negOk, negOks, Bool.and_eq_true] at h
    simp only [opt, negOk, negOks, negOk_opt m inj h.1, negOk_opt c [] h.2.1, negOks_opts cs h.2.2, Bool.and_self]
  | .alt [], _, _ => by simp [opt, negOk, negOks]
  | .alt [c], inj, h => by
    simp only [negOk, negOks, Bool.and_true] at h
    rw [opt]; exact negOk_opt c inj h
  | .alt (c :: d :: cs), inj, h => by
    simp only [negOk, negOks, Bool.and_eq_true] at h
    simp only [opt, negOk, negOks, negOk_opt c [] h.1, negOk_opt d [] h.2.1, negOks_opts cs h.2.2, Bool.and_self]
  | .greedy m lo hi cs, inj, h => by
    simp only [negOk, Bool.and_eq_true] at h
    simp only [opt]; split <;> simp only [negOk, negOk_opt m [] h.1, negOks_opts cs h.2, Bool.and_self]
  | .lazy m lo hi cs, inj, h => by
    simp only [negOk, Bool.and_eq_true] at h
    simp only [opt]; split <;> simp only [negOk, negOk_opt m [] h.1, negOks_opts cs h.2, Bool.and_self]
  | .possessive m lo hi cs, inj, h => by
    simp only [negOk, Bool.and_eq_true] at h
    simp only [opt, negOk, negOk_opt m [] h.1, negOks_opts cs h.2, Bool.and_self]
  | .repeated m n cs, inj, h => by
    simp only [negOk, Bool.and_eq_true] at h
    simp only [opt, negOk, negOk_opt m [] h.1, negOks_opts cs h.2, Bool.and_self]
  | .group m idx cs, inj, h => by
    simp only [negOk, Bool.and_eq_true] at h
    simp only [opt, negOk, negOk_opt m _ h.1, negOks_opts cs h.2, Bool.and_self]
theorem negOks_opts : ∀ (cs : List Node), negOks cs = true → negOks (opts cs) = true
  | [], _ => by simp [opts, negOks]
  | c :: cs, h => by
    simp only [negOks, Bool.and_eq_true] at h
    simp only [opts, negOks, negOk_opt c [] h.1, negOks_opts cs h.2, Bool.and_self]
end

theorem negOks_iff (cs : List Node) : negOks cs = true ↔ ∀ c ∈ cs, negOk c = true := by
  induction cs with
  | nil => simp [negOks]
  | cons c cs ih => simp [negOks, ih]

theorem terminal_negOk {hd : Tok} {t : Node} (h : terminalOf hd = some t) : negOk t = true := by
  unfold terminalOf at h
  split at h <;> simp at h <;> subst h <;> rfl

/-- The terminal of an escape consumes at most one character. -/
theorem terminal_min {d : Int} {t : Node} (h : terminalOf [92, d] = some t) : minSize t ≤ 1 := by
  unfold terminalOf at h
  split at h <;> simp_all
  all_goals subst h; simp [minSize, wrap32]

theorem item_negOk {ts : List Tok} {ns : List Node} (h : Items ts ns) : ∀ n ∈ ns, negOk n = true := by
  induction h with
  | nil => simp
  | range _ _ ih => intro n hn; rcases List.mem_cons.1 hn with rfl | hn; · rfl
                    · exact ih n hn
  | esc ht _ _ ih => intro n hn; rcases List.mem_cons.1 hn with rfl | hn; · simp [negOk, negOks, terminal_negOk ht]
                     · exact ih n hn
  | chr _ _ _ _ ih => intro n hn; rcases List.mem_cons.1 hn with rfl | hn; · rfl
                      · exact ih n hn

/-- A class whose first token is short has minimum size at most 1. -/
theorem class_min {c : List Tok} {nd : Node} (h : classNode c = some nd) (hs : ∀ x, c.head? = some x → Short x) :
    minSize nd ≤ 1 := by
  obtain ⟨ns, hi, hne, rfl⟩ := classNode_items h
  simp only [minSize]
  cases hi with
  | nil => exact absurd rfl hne
  | range _ _ => exact Nat.le_trans (listMin_le (by simp [minSizes]; left; rfl)) (by rw [minSize_simple_nil]; simp [minSize])
  | esc ht _ _ => exact Nat.le_trans (listMin_le (by simp [minSizes]; left; rfl)) (by rw [minSize_simple_nil]; exact terminal_min ht)
  | chr hn1 hn2 _ _ =>
    refine Nat.le_trans (listMin_le (by simp [minSizes]; left; rfl)) ?_
    rw [minSize_simple_nil]
    rcases hs _ rfl with h | ⟨d, h⟩
    · simp only [minSize, h]; decide
    · exact absurd h (hn2 d)

theorem policy_negOk {pol : Policy} {m : Node} {lo hi : Nat} (h : negOk m = true) : negOk (pol.node m lo hi) = true := by
  cases pol <;> simp [Policy.node, negOk, negOks, h]

theorem kept_negOk {p : List Int} {ts : List Tok} (ht : tokenize p = some ts) : Kept ts (fun n => negOk n = true) where
  node := by
    intro b xs n rs r hi hc
    have hadj := (adjOk_of_tokens ((tokenize_iff p ts).1 ht)).1
    rcases classify_node_shape hc with ⟨v, _, rfl⟩ | ⟨hd, t, h, rfl⟩ | ⟨tl, c, r', nd, rfl, he, hn, rfl⟩ | ⟨tl, c, r', nd, rfl, he, hn, rfl⟩
    · rfl
    · simp [negOk, negOks, terminal_negOk h]
    · obtain ⟨ns, hi, _, rfl⟩ := classNode_items hn
      simp only [negOk, negOks, Bool.and_true, negOks_iff]
      exact item_negOk hi
    · simp only [negOk, negOks, Bool.and_true, decide_eq_true_eq]
      refine class_min hn ?_
      intro x hx
      obtain ⟨c', rfl⟩ : ∃ c', c = x :: c' := by
        cases c with
        | nil => simp at hx
        | cons y c' => simp at hx; exact ⟨c', by rw [hx]⟩
      obtain ⟨w, hw⟩ := (extractT_infix he (by decide)).1
      rw [← hw] at hi
      rcases adjOk_infix hadj hi with h | h | h
      · exact absurd h (by decide)
      · exact absurd h (by decide)
      · exact h
  policy := fun pol m lo hi h => policy_negOk h
  rep := fun m n h => by simp [negOk, negOks, h]
  add := by
    intro l n t hl hn h
    cases l <;> simp only [addChild, Option.some.injEq, reduceCtorEq] at h <;> subst h <;>
      simp only [negOk, Bool.and_eq_true, negOks_iff, List.mem_append, List.mem_singleton] at hl ⊢
    case alt => intro c hc; exact hc.elim (hl c) (fun e => e ▸ hn)
    all_goals exact ⟨hl.1, fun c hc => hc.elim (hl.2 c) (fun e => e ▸ hn)⟩
  bos := rfl
  eol := rfl
  capture := fun bs gi _ h => by simp only [negOk, negOks, Bool.and_true, negOks_iff]; exact h
  noncapture := fun bs _ h => by simp only [negOk, negOks, Bool.and_true, negOks_iff]; exact h

/-- Every built tree. -/
theorem build_negOk {p : List Int} {b : Node} (hb : build p = some b) : negOk b = true := by
  cases ht : tokenize p with
  | none => simp [build, ht] at hb
  | some ts =>
    obtain ⟨ns, rfl, _, h⟩ := build_kept ht hb (kept_negOk ht)
    simpa only [negOk, negOks_iff] using h

/-- Every compiled tree. -/
theorem compile_negOk {p : List Int} {t : Node} (h : compile p = some t) : negOk t = true := by
  simp only [compile, Option.bind_eq_some_iff] at h
  obtain ⟨b, hb, ho⟩ := h
  obtain ⟨k, rfl⟩ := optFix_rounds _ _ _ ho
  exact rounds_keep (fun t h => negOk_opt t [] h) k b (build_negOk hb)

/-! ## The maximum size -/

mutual
/-- Trees for which the maximum match size is right: no wrapping; below a sequence or alternation only parts of fixed size; no
continuation below an exact repetition or a group (both ignored by the code). -/
def maxOk : Node → Bool
  | .exact s _ => decide (s.length < umax)
  | .range .. | .space | .word | .any | .bos | .eol => true
  | .negated m => decide (1 ≤ minSize m)
  | .simple m cs => maxOk m && fixedOks cs && decide (maxSize m + listMax (minSizes cs) < umax)
  | .alt cs => fixedOks cs
  | .greedy m _ hi cs | .lazy m _ hi cs | .possessive m _ hi cs =>
    decide (hi = umax) || (maxOk m && maxOks cs && decide (maxSize m < umax) && decide (maxSize m * hi + listMax (maxSizes cs) < umax))
  | .repeated m n cs => cs.isEmpty && maxOk m && decide (maxSize m < umax) && decide (maxSize m * n < umax)
  | .group m _ cs => cs.isEmpty && maxOk m
/-- … in a children pack. -/
def maxOks : List Node → Bool
  | [] => true
  | c :: cs => maxOk c && maxOks cs
/-- … and each of fixed size. -/
def fixedOks : List Node → Bool
  | [] => true
  | c :: cs => maxOk c && decide (maxSize c ≤ minSize c) && fixedOks cs
end

theorem le_listMax : ∀ {l : List Nat} {x : Nat}, x ∈ l → x ≤ listMax l
  | y :: l, x, h => by
    simp only [listMax]
    rcases List.mem_cons.1 h with rfl | h
    · exact Nat.le_max_left _ _
    · exact Nat.le_trans (le_listMax h) (Nat.le_max_right _ _)

theorem maxSizes_eq : ∀ cs : List Node, maxSizes cs = cs.map maxSize
  | [] => by simp [maxSizes]
  | c :: cs => by simp [maxSizes, maxSizes_eq cs]

theorem iter_max {R : Nat → Nat → Prop} {w : Nat} (h : ∀ i j, R i j → j ≤ i + w) : ∀ (n i j : Nat), Iter R n i j → j ≤ i + w * n
  | 0, i, j, e => by simp only [Iter] at e; omega
  | n + 1, i, j, ⟨k, h1, h2⟩ => by
    have := h i k h1
    have := iter_max h n k j h2
    rw [Nat.mul_succ]; omega

theorem rep_max {q : List Int} {r : Rx} {w lo hi i j : Nat} (h : ∀ i j, Den q r i j → j ≤ i + w)
    (hd : Den q (.rep r lo (some hi)) i j) : j ≤ i + w * hi := by
  obtain ⟨n, _, hn, hit⟩ := hd
  have h1 := iter_max h n i j hit
  have h2 := Nat.mul_le_mul_left w (hn hi rfl)
  omega

theorem wrap32_eq {a : Int} {n : Nat} (e : a = (n : Int)) (h : n < umax) : wrap32 a = n := by
  simp only [umax] at h; subst e; simp only [wrap32]; omega

/-- The continuation, by maximum sizes. -/
theorem cont_max {q : List Int} {cs : List Node} {f : Node → Nat} (h : ∀ c ∈ cs, ∀ i j, Den q (toRx c) i j → j ≤ i + f c) {i j : Nat}
    (hd : Den q (contOf (toRxs cs)) i j) : j ≤ i + listMax (cs.map f) := by
  by_cases he : cs = []
  · subst he
    rw [den_cont_nil] at hd
    omega
  · rw [den_cont q he] at hd
    obtain ⟨c, hc, hd⟩ := hd
    have h1 := h c hc i j hd
    have h2 := le_listMax (l := cs.map f) (List.mem_map_of_mem hc)
    omega

theorem fixed_of_lt {cs : List Node} (h : listMax (minSizes cs) < umax) : ∀ c ∈ cs, minSize c < umax := by
  intro c hc
  have := le_listMax (l := minSizes cs) (by rw [minSizes_eq]; exact List.mem_map_of_mem hc)
  omega

theorem quant_max {q : List Int} {m : Node} {lo hi : Nat} {cs : List Node} (hm : ∀ i j, Den q (toRx m) i j → j ≤ i + maxSize m)
    (hc : ∀ c ∈ cs, ∀ i j, Den q (toRx c) i j → j ≤ i + maxSize c) (hh : hi ≠ umax) (hw : maxSize m * hi + listMax (maxSizes cs) < umax)
    {i j : Nat} (h : Den q (.seq (.rep (toRx m) lo (boundOf hi)) (contOf (toRxs cs))) i j) :
    j ≤ i + wrap32 ((wrap32 (maxSize m * hi) : Nat) + listMax (maxSizes cs)) := by
  obtain ⟨k, h1, h2⟩ := h
  simp only [boundOf, hh, if_false] at h1
  have e1 := rep_max hm h1
  have e2 := cont_max hc h2
  rw [← maxSizes_eq] at e2
  have e3 : wrap32 ((maxSize m : Int) * (hi : Int)) = maxSize m * hi := wrap32_eq (by push_cast; rfl) (by omega)
  rw [e3, wrap32_eq (n := maxSize m * hi + listMax (maxSizes cs)) (by push_cast; rfl) hw]
  omega

mutual
/-- Nothing denoted by the tree is longer than its maximum match size. -/
theorem max_den (q : List Int) : ∀ (t : Node), maxOk t = true → maxSize t < umax → ∀ i j, Den q (toRx t) i j → j ≤ i + maxSize t
  | .exact s _, hm, _, i, j, h => by
    simp only [maxOk, decide_eq_true_eq] at hm
    simp only [toRx, Den] at h
    simp only [maxSize, wrap32_eq rfl hm]; omega
  | .range .., _, _, i, j, h => by simp only [toRx, Den] at h; simp only [maxSize]; omega
  | .space, _, _, i, j, h => by simp only [toRx, Den] at h; simp only [maxSize]; omega
  | .word, _, _, i, j, h => by simp only [toRx, Den] at h; simp only [maxSize]; omega
  | .any, _, _, i, j, h => by simp only [toRx, Den] at h; simp only [maxSize]; omega
  | .bos, _, _, i, j, h => by simp only [toRx, Den] at h; simp only [maxSize]; omega
  | .eol, _, _, i, j, h => by simp only [toRx, Den] at h; simp only [maxSize]; omega
  | .negated m, hn, _, i, j, h => by
    simp only [toRx, Den] at h
    simp only [maxOk, decide_eq_true_eq] at hn
    simp only [maxSize]; omega
  | .simple m cs, hn, _, i, j, h => by
    simp only [toRx] at h
    simp only [maxOk, Bool.and_eq_true, decide_eq_true_eq] at hn
    obtain ⟨k, h1, h2⟩ := h
    have e1 := max_den q m hn.1.1 (by omega) i k h1
    have e2 := cont_max (fixed_den q cs hn.1.2 (fixed_of_lt (by omega))) h2
    rw [← minSizes_eq] at e2
    simp only [maxSize]
    rw [wrap32_eq (n := maxSize m + listMax (minSizes cs)) (by push_cast; rfl) hn.2]
    omega
  | .alt cs, hn, hl, i, j, h => by
    simp only [toRx] at h
    simp only [maxOk] at hn
    simp only [maxSize] at hl ⊢
    have e2 := cont_max (fixed_den q cs hn (fixed_of_lt hl)) h
    rwa [← minSizes_eq] at e2
  | .greedy m lo hi cs, hn, hl, i, j, h => by
    simp only [toRx] at h
    simp only [maxSize] at hl ⊢
    split at hl
    · omega
    · rename_i hh
      simp only [hh, if_false]
      simp only [maxOk, Bool.or_eq_true, Bool.and_eq_true, decide_eq_true_eq, hh, false_or] at hn
      obtain ⟨⟨⟨h1, h2⟩, h3⟩, h4⟩ := hn
      exact quant_max (max_den q m h1 h3) (maxs_den q cs h2 (by
        intro c hc
        have := le_listMax (l := maxSizes cs) (by rw [maxSizes_eq]; exact List.mem_map_of_mem hc)
        omega)) hh h4 h
  | .lazy m lo hi cs, hn, hl, i, j, h => by
    simp only [toRx] at h
    simp only [maxSize] at hl ⊢
    split at hl
    · omega
    · rename_i hh
      simp only [hh, if_false]
      simp only [maxOk, Bool.or_eq_true, Bool.and_eq_true, decide_eq_true_eq, hh, false_or] at hn
      obtain ⟨⟨⟨h1, h2⟩, h3⟩, h4⟩ := hn
      exact quant_max (max_den q m h1 h3) (maxs_den q cs h2 (by
        intro c hc
        have := le_listMax (l := maxSizes cs) (by rw [maxSizes_eq]; exact List.mem_map_of_mem hc)
        omega)) hh h4 h
  | .possessive m lo hi cs, hn, hl, i, j, h => by
    simp only [toRx] at h
    simp only [maxSize] at hl ⊢
    split at hl
    · omega
    · rename_i hh
      simp only [hh, if_false]
      simp only [maxOk, Bool.or_eq_true, Bool.and_eq_true, decide_eq_true_eq, hh, false_or] at hn
      obtain ⟨⟨⟨h1, h2⟩, h3⟩, h4⟩ := hn
      exact quant_max (max_den q m h1 h3) (maxs_den q cs h2 (by
        intro c hc
        have := le_listMax (l := maxSizes cs) (by rw [maxSizes_eq]; exact List.mem_map_of_mem hc)
        omega)) hh h4 h
  | .repeated m n cs, hn, _, i, j, h => by
    simp only [toRx] at h
    simp only [maxOk, Bool.and_eq_true, decide_eq_true_eq, List.isEmpty_iff] at hn
    obtain ⟨⟨⟨rfl, h1⟩, h2⟩, h3⟩ := hn
    obtain ⟨k, h4, h5⟩ := h
    rw [den_cont_nil] at h5
    have e1 := rep_max (max_den q m h1 h2) h4
    have e3 : wrap32 ((maxSize m : Int) * (n : Int)) = maxSize m * n := wrap32_eq (by push_cast; rfl) h3
    simp only [maxSize, e3]
    omega
  | .group m idx cs, hn, hl, i, j, h => by
    simp only [toRx] at h
    simp only [maxOk, Bool.and_eq_true, List.isEmpty_iff] at hn
    obtain ⟨rfl, h1⟩ := hn
    obtain ⟨k, h4, h5⟩ := h
    rw [den_cont_nil] at h5
    simp only [maxSize] at hl ⊢
    rw [← h5]
    exact max_den q m h1 hl i k h4
theorem maxs_den (q : List Int) : ∀ (cs : List Node), maxOks cs = true → (∀ c ∈ cs, maxSize c < umax) → ∀ c ∈ cs, ∀ i j,
    Den q (toRx c) i j → j ≤ i + maxSize c
  | [], _, _, c, hc, _, _, _ => by simp at hc
  | c :: cs, hn, hl, x, hx, i, j, h => by
    simp only [maxOks, Bool.and_eq_true] at hn
    rcases List.mem_cons.1 hx with h' | hx
    · rw [h'] at h ⊢; exact max_den q c hn.1 (hl c (by simp)) i j h
    · exact maxs_den q cs hn.2 (fun c hc => hl c (by simp [hc])) x hx i j h
theorem fixed_den (q : List Int) : ∀ (cs : List Node), fixedOks cs = true → (∀ c ∈ cs, minSize c < umax) → ∀ c ∈ cs, ∀ i j,
    Den q (toRx c) i j → j ≤ i + minSize c
  | [], _, _, c, hc, _, _, _ => by simp at hc
  | c :: cs, hn, hl, x, hx, i, j, h => by
    simp only [fixedOks, Bool.and_eq_true, decide_eq_true_eq] at hn
    rcases List.mem_cons.1 hx with h' | hx
    · rw [h'] at h ⊢
      have := hl c (by simp)
      have := max_den q c hn.1.1 (by omega) i j h
      omega
    · exact fixed_den q cs hn.2 (fun c hc => hl c (by simp [hc])) x hx i j h
end

end ERegex

import Verif.Proofs.TreeBuilder
import Verif.Proofs.Optimize
set_option autoImplicit false
namespace ERegex
open Spec

/-! ## the scan that counts captures -/

theorem captures_skip (op cl : Int) (hne : op ≠ cl) : ∀ (u : List (List Int)) (k : Nat) (s : List (List Int)),
    depth op cl u = -k → PrefixOk op cl k u →
    captures (.inside op cl k) (u ++ [cl] :: s) = captures .normal s := by
  intro u
  induction u with
  | nil =>
    intro k s hd _
    rw [depth_nil] at hd
    have : k = 0 := by omega
    subst this
    simp [captures]
  | cons t u ih =>
    intro k s hd hp
    have hp' := prefixOk_tail hne hp
    rw [depth_cons _ _ hne] at hd
    have hcl : ¬ (cl = op) := fun e => hne e.symm
    simp only [List.cons_append, captures]
    by_cases h1 : t = [cl]
    · have h0 := hp [t] u rfl
      rw [depth_cons _ _ hne, depth_nil, h1] at h0
      simp [hcl] at h0
      simp only [h1, if_true]
      rw [if_neg (by omega), ih (k - 1)]
      · simp [h1, hcl] at hd; omega
      · simp [h1, hcl] at hp'
        have e : ((k - 1 : Nat) : Int) = (k : Int) + -1 := by omega
        rw [e]; exact hp'
    · rw [if_neg h1]
      by_cases h2 : t = [op]
      · rw [if_pos h2, ih (k + 1)]
        · simp [h2] at hd; omega
        · simp [h2] at hp'; exact hp'
      · rw [if_neg h2, ih k]
        · simp [h1, h2] at hd; omega
        · simpa [h1, h2] using hp'

/-- `ts` counts `n` captures, whatever follows it. -/
def Counts (ts : List (List Int)) (n : Nat) : Prop := ∀ s, captures .normal (ts ++ s) = n + captures .normal s

theorem Counts.nil : Counts [] 0 := fun s => by simp
theorem Counts.append {a b : List (List Int)} {m n : Nat} (ha : Counts a m) (hb : Counts b n) : Counts (a ++ b) (m + n) := by
  intro s; rw [List.append_assoc, ha, hb]; omega

theorem Counts.plain {t : List Int} (h1 : t ≠ [40]) (h2 : t ≠ [91]) (h3 : t ≠ [123]) : Counts [t] 0 := by
  intro s; simp [captures, h1, h2, h3]

theorem Counts.cons {t : List Int} {ts : List (List Int)} {n : Nat} (h1 : t ≠ [40]) (h2 : t ≠ [91]) (h3 : t ≠ [123])
    (h : Counts ts n) : Counts (t :: ts) n := by
  have := (Counts.plain h1 h2 h3).append h
  simpa using this

theorem Counts.toNat {ts : List (List Int)} {n : Nat} (h : Counts ts n) : captures .normal ts = n := by
  have := h []; simpa [captures] using this

theorem Counts.bracket {op cl : Int} (hb : (op = 91 ∧ cl = 93) ∨ (op = 123 ∧ cl = 125)) {c : List (List Int)}
    (hd : depth op cl c = 0) (hp : PrefixOk op cl 0 c) : Counts ([op] :: (c ++ [[cl]])) 0 := by
  intro s
  have hne : op ≠ cl := by omega
  have e : ([op] :: (c ++ [[cl]])) ++ s = [op] :: (c ++ [cl] :: s) := by simp
  rw [e]
  have hs := captures_skip op cl hne c 0 s (by simpa using hd) (by simpa using hp)
  rcases hb with ⟨rfl, rfl⟩ | ⟨rfl, rfl⟩ <;> simp [captures, hs]

/-- A well-extracted content. -/
theorem extract_cases {op cl : Int} (hne : op ≠ cl) {ts c r : List (List Int)} (h : extractT op cl ts = some (c, r)) :
    (ts = c ++ [cl] :: r ∧ depth op cl c = 0 ∧ PrefixOk op cl 0 c) ∨ (c = [] ∧ r = []) := by
  rcases extractAux_sound op cl hne ts 0 [] c r h with ⟨u, h1, h2, h3, h4⟩ | ⟨h1, h2, _, _⟩
  · simp at h1; subst h1
    left; exact ⟨h2, by simpa using h3, by simpa using h4⟩
  · right; exact ⟨h1, h2⟩

/-! ## trees without captures -/

theorem slots_terminal {h : List Int} {t : Node} (e : terminalOf h = some t) : slots t = [] ∧ nextIdx t = 0 := by
  unfold terminalOf at e
  split at e <;> simp at e <;> subst e <;> simp [slots, nextIdx]

theorem classItems_slots : ∀ (f : Nat) (ts : List (List Int)) (r : List Node), classItems f ts = some r →
    slotss r = [] ∧ nextIdxs r = 0 := by
  intro f
  induction f with
  | zero =>
    intro ts r h
    cases ts with
    | nil => simp [classItems] at h; subst h; simp [slotss, nextIdxs]
    | cons t ts => simp [classItems] at h
  | succ f ih =>
    intro ts r h
    unfold classItems at h
    split at h
    · simp at h; subst h; simp [slotss, nextIdxs]
    · simp at *
    · split at h
      · split at h
        · simp only [Option.map_eq_some_iff] at h
          obtain ⟨r', h1, h2⟩ := h
          subst h2
          cases ‹f + 1 = Nat.succ _›
          obtain ⟨e1, e2⟩ := ih _ _ h1
          simp [slotss, nextIdxs, slots, nextIdx, e1, e2]
        · simp at h
      · simp at h
    · split at h
      · simp at h
      · rename_i ht
        simp only [Option.map_eq_some_iff] at h
        obtain ⟨r', h1, h2⟩ := h
        subst h2
        cases ‹f + 1 = Nat.succ _›
        obtain ⟨e1, e2⟩ := ih _ _ h1
        obtain ⟨e3, e4⟩ := slots_terminal ht
        simp [slotss, nextIdxs, slots, nextIdx, e1, e2, e3, e4]
    · split at h
      · simp at h
      · simp only [Option.map_eq_some_iff] at h
        obtain ⟨r', h1, h2⟩ := h
        subst h2
        cases ‹f + 1 = Nat.succ _›
        obtain ⟨e1, e2⟩ := ih _ _ h1
        simp [slotss, nextIdxs, slots, nextIdx, e1, e2]

theorem classNode_slots {ts : List (List Int)} {n : Node} (h : classNode ts = some n) :
    slots n = [] ∧ nextIdx n = 0 ∧ ts ≠ [] := by
  unfold classNode at h
  split at h
  · simp at h
  · simp at h
  · rename_i items hne hi
    simp at h; subst h
    obtain ⟨e1, e2⟩ := classItems_slots _ _ _ hi
    refine ⟨by simp [slots, e1], by simp [nextIdx, e2], ?_⟩
    intro e
    subst e
    simp [classItems] at hi
    subst hi
    exact hne rfl

theorem exactNode_slots {v : List Int} {n : Node} (h : exactNode v = some n) : slots n = [] ∧ nextIdx n = 0 := by
  unfold exactNode at h
  split at h
  · simp at h
  · simp at h; subst h; simp [slots, slotss, nextIdx, nextIdxs]

/-! ## what each step consumes -/

/-- What a step has read, and what it adds. -/
def Step.reads (ts : List (List Int)) : Step → Prop
  | .done => ts = []
  | .finish => Counts ts 0
  | .fail => True
  | .start r => ∃ u, ts = u ++ r ∧ Counts u 0
  | .node n _ r => (∃ u, ts = u ++ r ∧ Counts u 0) ∧ slots n = [] ∧ nextIdx n = 0
  | .quant q r => ∀ m n, q m = some n → (∃ u, ts = u ++ r ∧ Counts u 0) ∧ slots n = slots m
  | .capture c r => (ts = [40] :: (c ++ [41] :: r) ∧ (∀ s : List (List Int), (c ++ [41] :: s).take 2 ≠ ([[63], [58]] : List (List Int)))) ∨ (c = [] ∧ r = [])
  | .noncapture c r => (ts = [40] :: [63] :: [58] :: (c ++ [41] :: r)) ∨ (c = [] ∧ r = [])

theorem policy_slots (p : Policy) (m : Node) (lo hi : Nat) : slots (p.node m lo hi) = slots m := by
  cases p <;> simp [Policy.node, slots, slotss]

theorem quantified_slots {m n : Node} {d : List (List Int)} {p : Policy} (h : quantifiedNode m d p = some n) :
    slots n = slots m ∧ d ≠ [] := by
  unfold quantifiedNode at h
  split at h
  · simp only [Option.map_eq_some_iff] at h
    obtain ⟨k, _, rfl⟩ := h
    simp [slots, slotss]
  · simp only [Option.map_eq_some_iff] at h
    obtain ⟨k, _, rfl⟩ := h
    simp [policy_slots]
  · split at h
    · simp at h; subst h; simp [policy_slots]
    · simp at h
  · simp at h

theorem policyOf_reads (ts : List (List Int)) : ∃ u, ts = u ++ (policyOf ts).2 ∧ Counts u 0 := by
  unfold policyOf
  split
  · rename_i tl; exact ⟨[[63]], rfl, Counts.plain (by decide) (by decide) (by decide)⟩
  · rename_i tl; exact ⟨[[43]], rfl, Counts.plain (by decide) (by decide) (by decide)⟩
  · exact ⟨[], rfl, Counts.nil⟩

theorem octalHead_reads {h : List Int} {tl : List (List Int)} {v r} (e : classify.octalHead h tl = some (v, r)) :
    ∃ u, tl = u ++ r ∧ Counts u 0 := by
  unfold classify.octalHead at e
  split at e
  · rename_i a b c tl'
    split at e
    · rename_i ho
      simp at e
      simp only [isOctal, Bool.and_eq_true, decide_eq_true_eq] at ho
      refine ⟨[[b], [c]], by simp [e.2], ?_⟩
      refine (Counts.plain (t := [b]) ?_ ?_ ?_).append (Counts.plain (t := [c]) ?_ ?_ ?_) <;>
        (intro e; simp at e; omega)
    · simp at e
  · simp at e

theorem hexHead_reads {h : List Int} {tl : List (List Int)} {v r} (e : classify.hexHead h tl = some (v, r)) :
    ∃ u, tl = u ++ r ∧ Counts u 0 := by
  unfold classify.hexHead at e
  split at e
  · rename_i a b tl'
    split at e
    · rename_i ho
      simp at e
      simp only [isHex, Bool.and_eq_true, decide_eq_true_eq] at ho
      refine ⟨[[a], [b]], by simp [e.2], ?_⟩
      refine (Counts.plain (t := [a]) ?_ ?_ ?_).append (Counts.plain (t := [b]) ?_ ?_ ?_) <;>
        (intro e; simp at e; omega)
    · split at e
      · rename_i ho
        simp at e
        simp only [isHex, Bool.and_eq_true, decide_eq_true_eq] at ho
        refine ⟨[[a]], by simp [← e.2], ?_⟩
        refine (Counts.plain (t := [a]) ?_ ?_ ?_) <;> (intro e; simp at e; omega)
      · simp at e
  · rename_i a tl' _
    split at e
    · rename_i ho
      simp at e
      simp only [isHex, Bool.and_eq_true, decide_eq_true_eq] at ho
      refine ⟨[[a]], by simp [← e.2], ?_⟩
      refine (Counts.plain (t := [a]) ?_ ?_ ?_) <;> (intro e; simp at e; omega)
    · simp at e
  · simp at e

theorem classify_reads (b : Bool) (ts : List (List Int)) : (classify b ts).reads ts := by
  unfold classify
  split
  · rfl
  · rename_i tl
    split
    · trivial
    · rename_i c r h
      rcases extract_cases (by decide) h with ⟨h1, _, _⟩ | h1
      · left; rw [h1]
      · right; exact h1
  · rename_i tl hnc
    split
    · trivial
    · rename_i c r h
      rcases extract_cases (by decide) h with ⟨h1, _, _⟩ | h1
      · left
        refine ⟨by rw [h1], ?_⟩
        intro s e
        cases c with
        | nil => simp at e
        | cons x c =>
          cases c with
          | nil => simp at e
          | cons y c =>
            simp at e
            exact hnc (c ++ [41] :: r) (by rw [h1]; simp [e.1, e.2])
      · right; exact h1
  · rename_i tl
    split
    · trivial
    · rename_i c r h
      split
      · trivial
      · rename_i n hn
        obtain ⟨e1, e2, e3⟩ := classNode_slots hn
        rcases extract_cases (by decide) h with ⟨h1, h2, h3⟩ | h1
        · refine ⟨⟨[91] :: [94] :: (c ++ [[93]]), by simp [h1], ?_⟩, by simp [slots, slotss, e1], by simp [nextIdx, nextIdxs, e2]⟩
          have hd : depth 91 93 ([94] :: c) = 0 := by simpa [depth, List.count_cons] using h2
          have hp : PrefixOk 91 93 0 ([94] :: c) := prefixOk_cons (by decide) (by decide) (by simpa using h3)
          exact Counts.bracket (c := [94] :: c) (Or.inl ⟨rfl, rfl⟩) hd hp
        · exact absurd h1.1 e3
  · rename_i tl _
    split
    · trivial
    · rename_i c r h
      split
      · trivial
      · rename_i n hn
        obtain ⟨e1, e2, e3⟩ := classNode_slots hn
        rcases extract_cases (by decide) h with ⟨h1, h2, h3⟩ | h1
        · refine ⟨⟨[91] :: (c ++ [[93]]), by simp [h1], Counts.bracket (Or.inl ⟨rfl, rfl⟩) h2 h3⟩,
            by simp [slots, slotss, e1], by simp [nextIdx, nextIdxs, e2]⟩
        · exact absurd h1.1 e3
  · rename_i tl
    split
    · trivial
    · rename_i c r h
      intro m n hq
      obtain ⟨e1, e2⟩ := quantified_slots hq
      rcases extract_cases (by decide) h with ⟨h1, h2, h3⟩ | h1
      · obtain ⟨u, hu, hc⟩ := policyOf_reads r
        refine ⟨⟨([123] :: (c ++ [[125]])) ++ u, ?_, ?_⟩, e1⟩
        · rw [h1]; simp; exact hu
        · exact (Counts.bracket (Or.inr ⟨rfl, rfl⟩) h2 h3).append hc
      · exact absurd h1.1 e2
  · rename_i tl
    intro m n hq
    simp at hq; subst hq
    obtain ⟨u, hu, hc⟩ := policyOf_reads tl
    exact ⟨⟨[42] :: u, by simp; exact hu, Counts.cons (by decide) (by decide) (by decide) hc⟩, policy_slots _ _ _ _⟩
  · rename_i tl
    intro m n hq
    simp at hq; subst hq
    obtain ⟨u, hu, hc⟩ := policyOf_reads tl
    exact ⟨⟨[43] :: u, by simp; exact hu, Counts.cons (by decide) (by decide) (by decide) hc⟩, policy_slots _ _ _ _⟩
  · rename_i tl
    intro m n hq
    simp at hq; subst hq
    obtain ⟨u, hu, hc⟩ := policyOf_reads tl
    exact ⟨⟨[63] :: u, by simp; exact hu, Counts.cons (by decide) (by decide) (by decide) hc⟩, policy_slots _ _ _ _⟩
  · exact Counts.plain (by decide) (by decide) (by decide)
  · rename_i tl
    split
    · rename_i d r h
      split
      · trivial
      · rename_i n hn
        rcases extract_cases (by decide) h with ⟨h1, h2, h3⟩ | h1
        · obtain ⟨v, _, hv⟩ := Option.bind_eq_some_iff.1 hn
          obtain ⟨e1, e2⟩ := exactNode_slots hv
          refine ⟨⟨[92, 120] :: ([123] :: ([d] ++ [[125]])), by simp [h1], ?_⟩, e1, e2⟩
          exact Counts.cons (by decide) (by decide) (by decide) (Counts.bracket (Or.inr ⟨rfl, rfl⟩) h2 h3)
        · simp at h1
    · trivial
  · rename_i tl
    split
    · rename_i d r h
      split
      · trivial
      · rename_i n hn
        rcases extract_cases (by decide) h with ⟨h1, h2, h3⟩ | h1
        · obtain ⟨v, _, hv⟩ := Option.bind_eq_some_iff.1 hn
          obtain ⟨e1, e2⟩ := exactNode_slots hv
          refine ⟨⟨[92, 111] :: ([123] :: ([d] ++ [[125]])), by simp [h1], ?_⟩, e1, e2⟩
          exact Counts.cons (by decide) (by decide) (by decide) (Counts.bracket (Or.inr ⟨rfl, rfl⟩) h2 h3)
        · simp at h1
    · trivial
  · rename_i h tl _ n40 _ n91 n123 _ _ _ _ _ _
    have h1 : h ≠ [40] := n40
    have h2 : h ≠ [91] := n91
    have h3 : h ≠ [123] := n123
    split
    · exact ⟨[h], rfl, Counts.plain h1 h2 h3⟩
    · split
      · rename_i hh
        obtain ⟨u, hu, hc⟩ := octalHead_reads hh
        exact ⟨⟨h :: u, by simp [hu], Counts.cons h1 h2 h3 hc⟩, by simp [slots, slotss], by simp [nextIdx, nextIdxs]⟩
      · split
        · rename_i hh
          obtain ⟨u, hu, hc⟩ := hexHead_reads hh
          exact ⟨⟨h :: u, by simp [hu], Counts.cons h1 h2 h3 hc⟩, by simp [slots, slotss], by simp [nextIdx, nextIdxs]⟩
        · split
          · trivial
          · rename_i ht
            obtain ⟨e1, e2⟩ := slots_terminal ht
            exact ⟨⟨[h], rfl, Counts.plain h1 h2 h3⟩, by simp [slots, slotss, e1], by simp [nextIdx, nextIdxs, e2]⟩

/-! ## the whole builder -/

/-- Slots of an optional node. -/
def slotsO : Option Node → List Nat
  | none => []
  | some t => slots t

theorem slotss_append (a b : List Node) : slotss (a ++ b) = slotss a ++ slotss b := by
  induction a with
  | nil => simp [slotss]
  | cons x a ih => simp [slotss, ih]

theorem addChild_slots {last : Option Node} {n t : Node} (h : addChild last n = some t) :
    slots t = slotsO last ++ slots n := by
  cases last with
  | none => simp [addChild] at h; subst h; simp [slotsO]
  | some l =>
    cases l <;> simp [addChild] at h <;> subst h <;> simp [slots, slotss_append, slotss, slotsO]

mutual
theorem nextIdx_le : ∀ (t : Node) (b : Nat), (∀ s ∈ slots t, s < b) → nextIdx t ≤ b
  | .exact .., _, _ => by simp [nextIdx]
  | .range .., _, _ => by simp [nextIdx]
  | .space, _, _ => by simp [nextIdx]
  | .word, _, _ => by simp [nextIdx]
  | .any, _, _ => by simp [nextIdx]
  | .bos, _, _ => by simp [nextIdx]
  | .eol, _, _ => by simp [nextIdx]
  | .negated m, b, h => by simp only [nextIdx]; exact nextIdx_le m b (by simpa [slots] using h)
  | .simple m cs, b, h => by
    simp only [nextIdx]; simp only [slots, List.mem_append] at h
    exact Nat.max_le.2 ⟨nextIdx_le m b (fun s hs => h s (Or.inl hs)), nextIdxs_le cs b (fun s hs => h s (Or.inr hs))⟩
  | .alt cs, b, h => by simp only [nextIdx]; exact nextIdxs_le cs b (by simpa [slots] using h)
  | .greedy m _ _ cs, b, h => by
    simp only [nextIdx]; simp only [slots, List.mem_append] at h
    exact Nat.max_le.2 ⟨nextIdx_le m b (fun s hs => h s (Or.inl hs)), nextIdxs_le cs b (fun s hs => h s (Or.inr hs))⟩
  | .lazy m _ _ cs, b, h => by
    simp only [nextIdx]; simp only [slots, List.mem_append] at h
    exact Nat.max_le.2 ⟨nextIdx_le m b (fun s hs => h s (Or.inl hs)), nextIdxs_le cs b (fun s hs => h s (Or.inr hs))⟩
  | .possessive m _ _ cs, b, h => by
    simp only [nextIdx]; simp only [slots, List.mem_append] at h
    exact Nat.max_le.2 ⟨nextIdx_le m b (fun s hs => h s (Or.inl hs)), nextIdxs_le cs b (fun s hs => h s (Or.inr hs))⟩
  | .repeated m _ cs, b, h => by
    simp only [nextIdx]; simp only [slots, List.mem_append] at h
    exact Nat.max_le.2 ⟨nextIdx_le m b (fun s hs => h s (Or.inl hs)), nextIdxs_le cs b (fun s hs => h s (Or.inr hs))⟩
  | .group m i cs, b, h => by simp only [nextIdx]; exact h i (by simp [slots])
theorem nextIdxs_le : ∀ (cs : List Node) (b : Nat), (∀ s ∈ slotss cs, s < b) → nextIdxs cs ≤ b
  | [], _, _ => by simp [nextIdxs]
  | c :: cs, b, h => by
    simp only [nextIdxs]; simp only [slotss, List.mem_append] at h
    exact Nat.max_le.2 ⟨nextIdx_le c b (fun s hs => h s (Or.inl hs)), nextIdxs_le cs b (fun s hs => h s (Or.inr hs))⟩
end

/-- What the builder guarantees for tokens `ts` started at group index `gi`: the new slots are counted by the token scan
and stay below `gi` + their number. -/
structure Built (ts : List (List Int)) (gi : Nat) (new : List Nat) : Prop where
  counts : Counts ts new.length
  bound : ∀ s ∈ new, s < gi + new.length

theorem buildAll_built {h : List (List Int) → Option Node} {gi : Nat}
    (H : ∀ b t, h b = some t → Built b gi (slots t)) :
    ∀ (bs : List (List (List Int))) (r : List Node), bs ≠ [] → buildAll h bs = some r →
      Counts (joinWith 124 bs) (slotss r).length ∧ (∀ s ∈ slotss r, s < gi + (slotss r).length) ∧ r ≠ [] := by
  intro bs
  induction bs with
  | nil => intro r h; exact absurd rfl h
  | cons b bs ih =>
    intro r _ e
    simp only [buildAll] at e
    split at e
    · simp at e
    · rename_i t ht
      have hb := H b t ht
      simp only [Option.map_eq_some_iff] at e
      obtain ⟨r', e1, e2⟩ := e
      subst e2
      refine ⟨?_, ?_, by simp⟩
      · simp only [slotss, List.length_append]
        cases bs with
        | nil =>
          simp [buildAll] at e1
          subst e1
          simpa [joinWith, slotss] using hb.counts
        | cons b' bs =>
          obtain ⟨h1, _, _⟩ := ih r' (by simp) e1
          simp only [joinWith]
          exact hb.counts.append (Counts.cons (by decide) (by decide) (by decide) h1)
      · intro s hs
        simp only [slotss, List.mem_append, List.length_append] at hs ⊢
        rcases hs with hs | hs
        · have := hb.bound s hs; omega
        · cases bs with
          | nil => simp [buildAll] at e1; subst e1; simp [slotss] at hs
          | cons b' bs =>
            obtain ⟨_, h2, _⟩ := ih r' (by simp) e1
            have := h2 s hs; omega

theorem splitT_joins (ts : List (List Int)) : joinWith 124 (splitT 124 ts) = ts := by
  have := splitAux_join 124 ts [] []
  simpa [splitT] using this

theorem splitT_ne_nil (ts : List (List Int)) : splitT 124 ts ≠ [] := splitAux_ne_nil _ _ _ _

theorem helper_built : ∀ (f : Nat) (last : Option Node) (ts : List (List Int)) (gi : Nat) (t : Node),
    helper f last ts gi = some t → ∃ new, slots t = slotsO last ++ new ∧ Built ts gi new := by
  intro f
  induction f with
  | zero => intro last ts gi t h; simp [helper] at h
  | succ f ih =>
    intro last ts gi t h
    have hr := classify_reads last.isNone ts
    simp only [helper] at h
    split at h <;> rename_i hc <;> rw [hc] at hr <;> simp only [Step.reads] at hr
    · -- done
      subst h
      exact ⟨[], by simp [slotsO], by rw [hr]; exact ⟨Counts.nil, by simp⟩⟩
    · simp at h
    · -- finish
      refine ⟨[], ?_, ⟨hr, by simp⟩⟩
      rw [addChild_slots h]; simp [slots, slotss]
    · -- start
      obtain ⟨u, hu, hcu⟩ := hr
      obtain ⟨new, h1, h2⟩ := ih _ _ _ _ h
      have hl : slotsO last = [] := by
        cases last with
        | none => rfl
        | some l => 
          exfalso
          revert hc
          unfold classify
          split <;> (try (intro e; cases e; done))
          all_goals try (split <;> (try (intro e; cases e; done)))
          all_goals try (split <;> (try (intro e; cases e; done)))
          all_goals try (split <;> (try (intro e; cases e; done)))
          all_goals try (split <;> (try (intro e; cases e; done)))
          all_goals simp_all
      refine ⟨new, by rw [h1, hl]; simp [slotsO, slots, slotss], ⟨?_, h2.bound⟩⟩
      rw [hu]
      have := hcu.append h2.counts
      simpa using this
    · -- quant
      cases last with
      | none => simp at h
      | some m =>
        simp only at h
        obtain ⟨n, hq, hh⟩ := Option.bind_eq_some_iff.1 h
        obtain ⟨⟨u, hu, hcu⟩, hs⟩ := hr m n hq
        obtain ⟨new, h1, h2⟩ := ih _ _ _ _ hh
        refine ⟨new, by rw [h1]; simp [slotsO, hs], ⟨?_, h2.bound⟩⟩
        rw [hu]
        have := hcu.append h2.counts
        simpa using this
    · -- node
      rename_i n reset rest
      obtain ⟨⟨u, hu, hcu⟩, hs, hn⟩ := hr
      obtain ⟨t', h1, h2⟩ := Option.bind_eq_some_iff.1 h
      obtain ⟨new, h3, h4⟩ := ih _ _ _ _ h1
      refine ⟨new, by rw [addChild_slots h2, h3]; simp [slotsO, hs], ⟨?_, ?_⟩⟩
      · rw [hu]
        have := hcu.append h4.counts
        simpa using this
      · intro s hs'
        have := h4.bound s hs'
        cases reset <;> simp [hn] at this <;> omega
    · -- capture
      rename_i c rest
      obtain ⟨bs, h1, h2⟩ := Option.bind_eq_some_iff.1 h
      obtain ⟨t', h3, h4⟩ := Option.bind_eq_some_iff.1 h2
      obtain ⟨b1, b2, b3⟩ := buildAll_built (gi := gi + 1)
        (fun b t hb => by obtain ⟨new, e1, e2⟩ := ih _ _ _ _ hb; simp [slotsO] at e1; rw [e1]; exact e2)
        _ _ (splitT_ne_nil _) h1
      rw [splitT_joins] at b1
      obtain ⟨new, h5, h6⟩ := ih _ _ _ _ h3
      refine ⟨gi :: (slotss bs ++ new), by rw [addChild_slots h4, h5]; simp [slotsO, slots, slotss], ⟨?_, ?_⟩⟩
      · rcases hr with ⟨hts, hq⟩ | ⟨hc0, _⟩
        · rw [hts]
          intro s
          have hh : captures .normal ([40] :: (c ++ [41] :: rest) ++ s)
              = 1 + captures .normal (c ++ [41] :: (rest ++ s)) := by
            have e : ([40] :: (c ++ [41] :: rest) ++ s : List (List Int)) = [40] :: (c ++ [41] :: (rest ++ s)) := by simp
            rw [e]
            simp only [captures, if_true]
            rw [if_neg (hq (rest ++ s))]
          rw [hh, b1]
          have h7 := (Counts.cons (t := [41]) (by decide) (by decide) (by decide) h6.counts) s
          simp only [List.cons_append] at h7
          rw [h7]
          simp; omega
        · exfalso
          subst hc0
          cases f with
          | zero => simp [splitT, splitAux, reverseT, reverseAux, buildAll, helper] at h1
          | succ f => simp [splitT, splitAux, reverseT, reverseAux, buildAll, helper, classify] at h1
      · intro s hs
        simp only [List.mem_cons, List.mem_append, List.length_cons, List.length_append] at hs ⊢
        rcases hs with rfl | hs | hs
        · omega
        · have := b2 s hs; omega
        · have := h6.bound s hs; omega
    · -- noncapture
      rename_i c rest
      obtain ⟨bs, h1, h2⟩ := Option.bind_eq_some_iff.1 h
      obtain ⟨t', h3, h4⟩ := Option.bind_eq_some_iff.1 h2
      obtain ⟨b1, b2, b3⟩ := buildAll_built (gi := gi)
        (fun b t hb => by obtain ⟨new, e1, e2⟩ := ih _ _ _ _ hb; simp [slotsO] at e1; rw [e1]; exact e2)
        _ _ (splitT_ne_nil _) h1
      rw [splitT_joins] at b1
      obtain ⟨new, h5, h6⟩ := ih _ _ _ _ h3
      refine ⟨slotss bs ++ new, by rw [addChild_slots h4, h5]; simp [slotsO, slots, slotss], ⟨?_, ?_⟩⟩
      · rcases hr with hts | ⟨hc0, _⟩
        · rw [hts]
          intro s
          have e : ([40] :: [63] :: [58] :: (c ++ [41] :: rest) ++ s : List (List Int))
              = [40] :: [63] :: [58] :: (c ++ [41] :: (rest ++ s)) := by simp
          have hh : captures .normal ([40] :: [63] :: [58] :: (c ++ [41] :: rest) ++ s)
              = captures .normal (c ++ [41] :: (rest ++ s)) := by
            rw [e]; simp [captures]
          rw [hh, b1]
          have h7 := (Counts.cons (t := [41]) (by decide) (by decide) (by decide) h6.counts) s
          simp only [List.cons_append] at h7
          rw [h7]
          simp; omega
        · exfalso
          subst hc0
          cases f with
          | zero => simp [splitT, splitAux, reverseT, reverseAux, buildAll, helper] at h1
          | succ f => simp [splitT, splitAux, reverseT, reverseAux, buildAll, helper, classify] at h1
      · have hle := nextIdxs_le bs _ b2
        intro s hs
        simp only [List.mem_append, List.length_append] at hs ⊢
        rcases hs with hs | hs
        · have := b2 s hs; omega
        · have := h6.bound s hs; omega

theorem topBranches_built (f : Nat) : ∀ (bs : List (List (List Int))) (gi : Nat) (r : List Node), bs ≠ [] →
    topBranches f bs gi = some r →
    Counts (joinWith 124 bs) (slotss r).length ∧ ∀ s ∈ slotss r, s < gi + (slotss r).length := by
  intro bs
  induction bs with
  | nil => intro gi r h; exact absurd rfl h
  | cons b bs ih =>
    intro gi r _ e
    simp only [topBranches] at e
    split at e
    · simp at e
    · rename_i t ht
      obtain ⟨new, e1, hb⟩ := helper_built _ _ _ _ _ ht
      simp [slotsO] at e1
      subst e1
      simp only [Option.map_eq_some_iff] at e
      obtain ⟨r', e1, e2⟩ := e
      subst e2
      have hn := nextIdx_le t _ hb.bound
      simp only [slotss, List.length_append, List.mem_append]
      cases bs with
      | nil =>
        simp [topBranches] at e1
        subst e1
        refine ⟨by simpa [joinWith, slotss] using hb.counts, ?_⟩
        intro s hs
        simp [slotss] at hs ⊢
        exact hb.bound s hs
      | cons b' bs =>
        obtain ⟨h1, h2⟩ := ih (nextIdx t) r' (by simp) e1
        refine ⟨?_, ?_⟩
        · simp only [joinWith]
          exact hb.counts.append (Counts.cons (by decide) (by decide) (by decide) h1)
        · intro s hs
          rcases hs with hs | hs
          · have := hb.bound s hs; omega
          · have := h2 s hs; omega

theorem build_built {p : List Int} {t : Node} (h : build p = some t) :
    ∃ ts, tokenize p = some ts ∧ (slots t).length = captures .normal ts ∧ ∀ s ∈ slots t, s < (slots t).length := by
  unfold build at h
  split at h
  · simp at h
  · rename_i ts hts
    simp only [Option.map_eq_some_iff] at h
    obtain ⟨bs, h1, h2⟩ := h
    subst h2
    obtain ⟨h3, h4⟩ := topBranches_built _ _ _ _ (splitT_ne_nil _) h1
    rw [splitT_joins] at h3
    refine ⟨ts, hts, ?_, ?_⟩
    · simp only [slots]; rw [h3.toNat]
    · intro s hs; simp only [slots] at hs ⊢; have := h4 s hs; omega

end ERegex

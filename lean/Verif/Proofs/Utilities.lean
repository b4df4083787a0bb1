import Verif.Model.Utilities
import Verif.Spec.Front
set_option autoImplicit false
namespace ERegex
open Spec

/-! ## numbers -/

theorem tenPower_eq (n : Nat) : (tenPower n : Int) = (10 ^ n : Int) % 4294967296 := by
  induction n with
  | zero => rfl
  | succ n ih =>
    simp only [tenPower, wrap32, Int.pow_succ]
    rw [Int.toNat_of_nonneg (Int.emod_nonneg _ (by decide)), ih]
    omega

theorem wrap32_cast (n : Int) : (wrap32 n : Int) = n % 4294967296 := by
  unfold wrap32; rw [Int.toNat_of_nonneg (Int.emod_nonneg _ (by decide))]

theorem decimal_acc : ∀ (s : List Int) (a : Int),
    s.foldl (fun acc c => 10 * acc + (c - 48)) a = a * 10 ^ s.length + decimal s := by
  intro s
  induction s with
  | nil => intro a; simp [decimal]
  | cons c tl ih =>
    intro a
    simp only [decimal, List.foldl_cons, List.length_cons, Int.pow_succ]
    rw [ih, ih (10 * 0 + (c - 48))]
    grind

theorem decimal_cons (c : Int) (tl : List Int) : decimal (c :: tl) = (c - 48) * 10 ^ tl.length + decimal tl := by
  have := decimal_acc tl (10 * 0 + (c - 48))
  simp only [decimal, List.foldl_cons] at this ⊢
  simpa using this

theorem emod_helper (a b c d : Int) (hb : b = c % 4294967296) :
    (a * b + d % 4294967296) % 4294967296 = (a * c + d) % 4294967296 := by
  subst hb
  rw [Int.add_emod, Int.mul_emod, Int.emod_emod, Int.emod_emod, ← Int.mul_emod, ← Int.add_emod]

theorem toNumberAux_eq (s : List Int) : (toNumberAux s : Int) = decimal s % 4294967296 := by
  induction s with
  | nil => rfl
  | cons c tl ih =>
    simp only [toNumberAux]
    rw [wrap32_cast, decimal_cons, ih]
    exact emod_helper _ _ _ _ (tenPower_eq _)

/-- Digits of `n` in front of `cur`. -/
theorem numberToPackAux_spec : ∀ (f n : Nat) (cur : List Int), n ≤ f →
    decimal (numberToPackAux f n cur) = n * 10 ^ cur.length + decimal cur := by
  intro f
  induction f with
  | zero => intro n cur h; simp at h; subst h; simp [numberToPackAux]
  | succ f ih =>
    intro n cur h
    simp only [numberToPackAux]
    split
    · subst_vars; simp
    · rename_i hn
      rw [ih _ _ (by omega), decimal_cons, List.length_cons, Int.pow_succ]
      have h10 : ((n - n / 10 * 10 : Nat) : Int) = (n : Int) - ((n / 10 : Nat) : Int) * 10 := by omega
      rw [h10]
      grind

theorem numberToPackAux_digits : ∀ (f n : Nat) (cur : List Int), (∀ c ∈ cur, IsDigit c) →
    ∀ c ∈ numberToPackAux f n cur, IsDigit c := by
  intro f
  induction f with
  | zero => intro n cur h; simpa [numberToPackAux] using h
  | succ f ih =>
    intro n cur h
    simp only [numberToPackAux]
    split
    · exact h
    · apply ih
      intro c hc
      simp only [List.mem_cons] at hc
      rcases hc with rfl | hc
      · unfold IsDigit; omega
      · exact h c hc

theorem numberToPackAux_ne_nil (f n : Nat) (cur : List Int) (h : cur ≠ [] ∨ (0 < n ∧ 0 < f)) :
    numberToPackAux f n cur ≠ [] := by
  induction f generalizing n cur with
  | zero =>
    rcases h with h | h
    · simpa [numberToPackAux] using h
    · omega
  | succ f ih =>
    simp only [numberToPackAux]
    split
    · rcases h with h | h
      · exact h
      · omega
    · apply ih; left; simp

/-! ## extract_delimited_content -/

/-- Depth is never negative on a prefix. -/
def PrefixOk (op cl : Int) (k : Int) (ts : List Tok) : Prop :=
  ∀ a b, ts = a ++ b → 0 ≤ k + depth op cl a

theorem depth_nil (op cl : Int) : depth op cl [] = 0 := by simp [depth]

theorem depth_cons (op cl : Int) (h : op ≠ cl) (t : Tok) (ts : List Tok) :
    depth op cl (t :: ts) = (if t = [op] then 1 else if t = [cl] then -1 else 0) + depth op cl ts := by
  simp only [depth, List.count_cons, beq_iff_eq]
  by_cases h1 : t = [op]
  · subst h1; simp [h]; omega
  · by_cases h2 : t = [cl]
    · subst h2
      have : ¬ (cl = op) := fun e => h e.symm
      simp [this]; omega
    · simp [h1, h2]

theorem prefixOk_cons {op cl : Int} (h : op ≠ cl) {k : Int} {t : Tok} {ts : List Tok} (hk : 0 ≤ k)
    (hp : PrefixOk op cl (k + (if t = [op] then 1 else if t = [cl] then -1 else 0)) ts) :
    PrefixOk op cl k (t :: ts) := by
  intro a b hab
  cases a with
  | nil => rw [depth_nil]; omega
  | cons x xs =>
    simp only [List.cons_append, List.cons.injEq] at hab
    rw [depth_cons _ _ h, ← hab.1]
    have := hp xs b hab.2
    omega

theorem prefixOk_tail {op cl : Int} (h : op ≠ cl) {k : Int} {t : Tok} {ts : List Tok}
    (hp : PrefixOk op cl k (t :: ts)) :
    PrefixOk op cl (k + (if t = [op] then 1 else if t = [cl] then -1 else 0)) ts := by
  intro a b hab
  have := hp (t :: a) b (by rw [hab]; rfl)
  rw [depth_cons _ _ h] at this
  omega

/-- What the scan returns. -/
theorem extractAux_sound (op cl : Int) (h : op ≠ cl) : ∀ (ts : List Tok) (k : Nat) (cur : List Tok) (c r : List Tok),
    extractAux op cl k cur ts = some (c, r) →
    (∃ u, c = cur ++ u ∧ ts = u ++ [cl] :: r ∧ depth op cl u = -k ∧ PrefixOk op cl k u) ∨
    (c = [] ∧ r = [] ∧ depth op cl ts = -k ∧ PrefixOk op cl k ts) := by
  intro ts
  induction ts with
  | nil =>
    intro k cur c r hh
    cases k with
    | zero =>
      simp only [extractAux, Option.some.injEq, Prod.mk.injEq] at hh
      right
      refine ⟨hh.1.symm, hh.2.symm, by simp [depth], ?_⟩
      intro a b hab
      simp at hab
      simp [hab.1, depth]
    | succ k => simp [extractAux] at hh
  | cons t ts ih =>
    intro k cur c r hh
    have key : ∀ (k' : Nat), (k' : Int) = k + (if t = [op] then 1 else if t = [cl] then -1 else 0) →
        extractAux op cl k' (cur ++ [t]) ts = some (c, r) →
        (∃ u, c = cur ++ u ∧ t :: ts = u ++ [cl] :: r ∧ depth op cl u = -k ∧ PrefixOk op cl k u) ∨
        (c = [] ∧ r = [] ∧ depth op cl (t :: ts) = -k ∧ PrefixOk op cl k (t :: ts)) := by
      intro k' hk' he
      rcases ih k' _ _ _ he with ⟨u, h1, h2, h3, h4⟩ | ⟨h1, h2, h3, h4⟩
      · left
        refine ⟨t :: u, by simp [h1], by simp [h2], ?_, ?_⟩
        · rw [depth_cons _ _ h, h3]; omega
        · apply prefixOk_cons h (by omega); rw [← hk']; exact h4
      · right
        refine ⟨h1, h2, ?_, ?_⟩
        · rw [depth_cons _ _ h, h3]; omega
        · apply prefixOk_cons h (by omega); rw [← hk']; exact h4
    have hop : ([cl] : Tok) ≠ [op] := by simp; exact fun e => h e.symm
    cases k with
    | zero =>
      simp only [extractAux] at hh
      split at hh
      · rename_i ht
        simp only [Option.some.injEq, Prod.mk.injEq] at hh
        left
        refine ⟨[], by simp [hh.1], by simp [ht, hh.2], by simp [depth], ?_⟩
        intro a b hab
        simp at hab
        simp [hab.1, depth]
      · rename_i ht
        split at hh
        · rename_i ht2; exact key 1 (by simp [ht2]) hh
        · rename_i ht2; exact key 0 (by simp [ht, ht2]) hh
    | succ k =>
      simp only [extractAux] at hh
      split at hh
      · rename_i ht
        subst ht
        exact key k (by simp [hop]; omega) hh
      · rename_i ht
        split at hh
        · rename_i ht2; exact key (k + 2) (by simp [ht2]; omega) hh
        · rename_i ht2; exact key (k + 1) (by simp [ht, ht2]) hh

theorem extractAux_complete (op cl : Int) (h : op ≠ cl) : ∀ (u : List Tok) (k : Nat) (cur r : List Tok),
    depth op cl u = -k → PrefixOk op cl k u →
    extractAux op cl k cur (u ++ [cl] :: r) = some (cur ++ u, r) := by
  intro u
  induction u with
  | nil =>
    intro k cur r hd _
    rw [depth_nil] at hd
    have : k = 0 := by omega
    subst this
    simp [extractAux]
  | cons t u ih =>
    intro k cur r hd hp
    have hp' := prefixOk_tail h hp
    rw [depth_cons _ _ h] at hd
    have hcl : ¬ (cl = op) := fun e => h e.symm
    cases k with
    | zero =>
      simp only [List.cons_append, extractAux]
      by_cases h1 : t = [cl]
      · have := hp [t] u rfl
        rw [depth_cons _ _ h, depth_nil, h1] at this
        simp [hcl] at this
      · rw [if_neg h1]
        by_cases h2 : t = [op]
        · rw [if_pos h2, ih 1]
          · simp
          · simp [h2] at hd; omega
          · simpa [h2] using hp'
        · rw [if_neg h2, ih 0]
          · simp
          · simp [h1, h2] at hd; omega
          · simpa [h1, h2] using hp'
    | succ k =>
      simp only [List.cons_append, extractAux]
      by_cases h1 : t = [cl]
      · rw [if_pos h1, ih k]
        · simp
        · simp [h1, hcl] at hd; omega
        · simp [h1, hcl] at hp'
          have e : ((k : Int) + 1 + -1) = k := by omega
          rw [e] at hp'; exact hp'
      · rw [if_neg h1]
        by_cases h2 : t = [op]
        · rw [if_pos h2, ih (k + 2)]
          · simp
          · simp [h2] at hd; omega
          · simp [h2] at hp'
            have e : (((k + 2 : Nat)) : Int) = (k : Int) + 1 + 1 := by omega
            rw [e]; exact hp'
        · rw [if_neg h2, ih (k + 1)]
          · simp
          · simp [h1, h2] at hd; omega
          · simpa [h1, h2] using hp'

theorem extractT_lengths {op cl : Int} {ts c r : List Tok} (h : extractT op cl ts = some (c, r)) (hne : op ≠ cl) :
    c.length + r.length ≤ ts.length := by
  rcases extractAux_sound op cl hne ts 0 [] c r h with ⟨u, h1, h2, _, _⟩ | ⟨h1, h2, _, _⟩
  · simp at h1; subst h1; rw [h2]; simp
  · simp [h1, h2]

/-! ## reverse / split -/

theorem reverseAux_eq {α : Type} : ∀ (l cur : List α), reverseAux l cur = l.reverse ++ cur := by
  intro l
  induction l with
  | nil => intro cur; simp [reverseAux]
  | cons x xs ih => intro cur; simp [reverseAux, ih]

theorem reverseT_eq {α : Type} (l : List α) : reverseT l = l.reverse := by simp [reverseT, reverseAux_eq]

theorem joinWith_append_piece (sep : Int) : ∀ (ps : List (List Tok)) (q : List Tok), ps ≠ [] →
    joinWith sep (ps ++ [q]) = joinWith sep ps ++ [sep] :: q := by
  intro ps
  induction ps with
  | nil => intro q h; exact absurd rfl h
  | cons p ps ih =>
    intro q _
    cases ps with
    | nil => simp [joinWith]
    | cons p' ps => simp [joinWith] at ih ⊢; rw [ih]

theorem splitAux_join (sep : Int) : ∀ (ts cur : List Tok) (done : List (List Tok)),
    joinWith sep (splitAux sep ts cur done) =
      (if done = [] then cur else joinWith sep done.reverse ++ [sep] :: cur) ++ ts := by
  intro ts
  induction ts with
  | nil =>
    intro cur done
    simp only [splitAux, reverseT_eq, List.reverse_cons, List.append_nil]
    split
    · subst_vars; simp [joinWith]
    · rename_i h; rw [joinWith_append_piece]; simpa using h
  | cons t ts ih =>
    intro cur done
    simp only [splitAux]
    split
    · rename_i h
      rw [ih]
      simp only [List.reverse_cons]
      rw [if_neg (by simp)]
      by_cases hd : done = []
      · subst hd; simp [joinWith, h.1]
      · rw [joinWith_append_piece _ _ _ (by simpa using hd)]; simp [hd, h.1]
    · rw [ih]
      split <;> simp

theorem splitAux_ne_nil (sep : Int) : ∀ (ts cur : List Tok) (done : List (List Tok)), splitAux sep ts cur done ≠ [] := by
  intro ts
  induction ts with
  | nil => intro cur done; simp [splitAux, reverseT_eq]
  | cons t ts ih => intro cur done; simp only [splitAux]; split <;> exact ih _ _

/-! ## balanced -/

theorem str_lp : str "(" = [40] := by decide
theorem str_rp : str ")" = [41] := by decide
theorem str_lb : str "[" = [91] := by decide
theorem str_rb : str "]" = [93] := by decide
theorem str_lc : str "{" = [123] := by decide
theorem str_rc : str "}" = [125] := by decide

/-- One step of the balance check on its stack. -/
def pushPop (st : List Ch) (t : Tok) : List Ch :=
  if t = [40] then 40 :: st
  else if t = [91] then 91 :: st
  else if t = [123] then 123 :: st
  else if t = [41] ∧ st.head? = some 40 then st.tail
  else if t = [93] ∧ st.head? = some 91 then st.tail
  else if t = [125] ∧ st.head? = some 123 then st.tail
  else st

theorem balancedFrom_eq : ∀ (ts : List Tok) (st : List Ch), balancedFrom st ts = (ts.foldl pushPop st).isEmpty := by
  intro ts
  induction ts with
  | nil => intro st; simp [balancedFrom]
  | cons t ts ih =>
    intro st
    simp only [balancedFrom, List.foldl_cons, pushPop, str_lp, str_rp, str_lb, str_rb, str_lc, str_rc]
    repeat' split
    all_goals exact ih _

/-- The bracket character an opener pushes. -/
theorem pushPop_open {o c : Tok} (h : Bracket o c) : ∃ x, o = [x] ∧ ∀ st, pushPop st o = x :: st := by
  cases h <;> exact ⟨_, rfl, fun st => by simp [pushPop]⟩

theorem pushPop_close {o c : Tok} (h : Bracket o c) (x : Ch) (hx : o = [x]) (st : List Ch) :
    pushPop (x :: st) c = st := by
  cases h <;> (simp at hx; subst hx; simp [pushPop])

theorem pushPop_other {t : Tok} (h : NoBracket t) (st : List Ch) : pushPop st t = st := by
  have h1 := h _ _ .round
  have h2 := h _ _ .square
  have h3 := h _ _ .curly
  simp [pushPop, h1, h2, h3]

theorem wellNested_stack {w : List Tok} (h : WellNested w) : ∀ st, w.foldl pushPop st = st := by
  induction h with
  | nil => intro st; rfl
  | tok ht _ ih => intro st; simp [pushPop_other ht, ih]
  | @pair o c a b hb _ _ ih1 ih2 =>
    intro st
    obtain ⟨x, hx, ho⟩ := pushPop_open hb
    simp only [List.foldl_cons, List.foldl_append]
    rw [ho, ih1, pushPop_close hb x hx, ih2]

/-- On a prefix of a well nested sequence the stack only grows. -/
theorem prefix_stack {w : List Tok} (h : WellNested w) :
    ∀ a b, w = a ++ b → ∃ s, ∀ st, a.foldl pushPop st = s ++ st := by
  induction h with
  | nil => intro a b hab; simp at hab; exact ⟨[], fun st => by simp [hab.1]⟩
  | @tok t ts ht _ ih =>
    intro a b hab
    cases a with
    | nil => exact ⟨[], fun st => rfl⟩
    | cons x xs =>
      simp only [List.cons_append, List.cons.injEq] at hab
      obtain ⟨s, hs⟩ := ih xs b hab.2
      refine ⟨s, fun st => ?_⟩
      rw [← hab.1, List.foldl_cons, pushPop_other ht, hs]
  | @pair o c a' b' hb hwa _ ih1 ih2 =>
    intro a b hab
    cases a with
    | nil => exact ⟨[], fun st => rfl⟩
    | cons x xs =>
      simp only [List.cons_append, List.cons.injEq] at hab
      obtain ⟨y, hy, ho⟩ := pushPop_open hb
      rcases List.append_eq_append_iff.1 hab.2 with ⟨u, hu1, hu2⟩ | ⟨u, hu1, hu2⟩
      · cases u with
        | nil =>
          simp at hu1 hu2
          refine ⟨[y], fun st => ?_⟩
          rw [← hab.1, List.foldl_cons, ho, hu1, wellNested_stack hwa]; rfl
        | cons z zs =>
          simp only [List.cons_append, List.cons.injEq] at hu2
          obtain ⟨s, hs⟩ := ih2 zs b hu2.2
          refine ⟨s, fun st => ?_⟩
          rw [← hab.1, List.foldl_cons, ho, hu1, List.foldl_append, wellNested_stack hwa, List.foldl_cons, ← hu2.1,
            pushPop_close hb y hy, hs]
      · obtain ⟨s, hs⟩ := ih1 xs u hu1
        refine ⟨s ++ [y], fun st => ?_⟩
        rw [← hab.1, List.foldl_cons, ho, hs]; simp

theorem topFree_wellNested {sep : Int} {w : List Tok} (h : TopFree sep w) : WellNested w := by
  induction h with
  | nil => exact .nil
  | tok h1 _ _ ih => exact .tok h1 ih
  | pair h1 h2 _ ih => exact .pair h1 h2 ih

theorem wellNested_append {a b : List Tok} (ha : WellNested a) (hb : WellNested b) : WellNested (a ++ b) := by
  induction ha with
  | nil => simpa
  | tok h _ ih => exact .tok h ih
  | pair h h1 _ _ ih2 => simpa using WellNested.pair h h1 ih2

theorem balancedV_wn {w : List Tok} (h : WellNested w) : balancedV w = true := by
  simp [balancedV, balancedFrom_eq, wellNested_stack h]

/-- Inside an open bracket nothing is cut. -/
theorem splitAux_inside (sep : Int) : ∀ (v : List Tok) (cur rest : List Tok) (done : List (List Tok)),
    (∀ a b, v = a ++ b → balancedV (cur ++ a) = false) →
    splitAux sep (v ++ rest) cur done = splitAux sep rest (cur ++ v) done := by
  intro v
  induction v with
  | nil => intro cur rest done _; simp
  | cons t v ih =>
    intro cur rest done h
    simp only [List.cons_append, splitAux]
    have h0 := h [] (t :: v) rfl
    simp only [List.append_nil] at h0
    rw [if_neg (by simp [h0]), ih]
    · simp
    · intro a b hab
      have := h (t :: a) b (by rw [hab]; rfl)
      simpa using this

theorem bracket_ne_sep {sep : Int} (hs : NoBracket [sep]) {o c : Tok} (h : Bracket o c) : o ≠ [sep] ∧ c ≠ [sep] :=
  ⟨fun e => (hs o c h).1 e.symm, fun e => (hs o c h).2 e.symm⟩

theorem splitAux_topFree (sep : Int) (hs : NoBracket [sep]) {w : List Tok} (h : TopFree sep w) :
    ∀ (cur rest : List Tok) (done : List (List Tok)), WellNested cur →
      splitAux sep (w ++ rest) cur done = splitAux sep rest (cur ++ w) done := by
  induction h with
  | nil => intro cur rest done _; simp
  | @tok t ts h1 h2 _ ih =>
    intro cur rest done hc
    simp only [List.cons_append, splitAux]
    rw [if_neg (by simp [h2]), ih _ _ _ (wellNested_append hc (.tok h1 .nil))]
    simp
  | @pair o c a b hb ha _ ih =>
    intro cur rest done hc
    obtain ⟨x, hx, ho⟩ := pushPop_open hb
    obtain ⟨hos, hcs⟩ := bracket_ne_sep hs hb
    have e1 : (o :: (a ++ c :: b)) ++ rest = o :: (a ++ (c :: (b ++ rest))) := by simp
    rw [e1, splitAux, if_neg (by simp [hos]), splitAux_inside sep a]
    · rw [splitAux, if_neg (by simp [hcs]), ih]
      · simp
      · have : cur ++ [o] ++ a ++ [c] = cur ++ (o :: (a ++ c :: [])) := by simp
        rw [this]; exact wellNested_append hc (.pair hb ha .nil)
    · intro a1 b1 hab
      obtain ⟨s, hs'⟩ := prefix_stack ha a1 b1 hab
      rw [balancedV, balancedFrom_eq, List.foldl_append, List.foldl_append, wellNested_stack hc]
      simp only [List.foldl_cons, List.foldl_nil, ho, hs']
      simp

theorem joinWith_wellNested (sep : Int) (hs : NoBracket [sep]) : ∀ ps : List (List Tok),
    (∀ p ∈ ps, TopFree sep p) → WellNested (joinWith sep ps) := by
  intro ps
  induction ps with
  | nil => intro _; exact .nil
  | cons p ps ih =>
    intro h
    cases ps with
    | nil => exact topFree_wellNested (h p (by simp))
    | cons q ps =>
      simp only [joinWith]
      exact wellNested_append (topFree_wellNested (h p (by simp)))
        (.tok hs (ih (fun x hx => h x (by simp [hx]))))

theorem splitAux_pieces (sep : Int) (hs : NoBracket [sep]) : ∀ (ps : List (List Tok)) (done : List (List Tok)),
    ps ≠ [] → (∀ p ∈ ps, TopFree sep p) → splitAux sep (joinWith sep ps) [] done = done.reverse ++ ps := by
  intro ps
  induction ps with
  | nil => intro _ h; exact absurd rfl h
  | cons p ps ih =>
    intro done _ h
    have hp := h p (by simp)
    cases ps with
    | nil =>
      have := splitAux_topFree sep hs hp [] [] done .nil
      simp only [joinWith]
      simp only [List.append_nil, List.nil_append] at this
      rw [this]
      simp [splitAux, reverseT_eq]
    | cons q ps =>
      have hr : ∀ x ∈ q :: ps, TopFree sep x := fun x hx => h x (by simp [hx])
      simp only [joinWith]
      rw [splitAux_topFree sep hs hp [] _ done .nil, splitAux, if_pos, ih (_ :: done) (by simp) hr]
      · simp
      · exact ⟨rfl, balancedV_wn (joinWith_wellNested sep hs _ hr), by simpa using balancedV_wn (topFree_wellNested hp)⟩

/-- Every well nested sequence is a join of pieces without a top-level separator. -/
theorem wellNested_pieces (sep : Int) {w : List Tok} (h : WellNested w) :
    ∃ ps, ps ≠ [] ∧ (∀ p ∈ ps, TopFree sep p) ∧ joinWith sep ps = w := by
  induction h with
  | nil => exact ⟨[[]], by simp, by simpa using TopFree.nil, rfl⟩
  | @tok t ts ht _ ih =>
    obtain ⟨ps, h1, h2, h3⟩ := ih
    cases ps with
    | nil => exact absurd rfl h1
    | cons p ps =>
      by_cases hs : t = [sep]
      · refine ⟨[] :: p :: ps, by simp, ?_, by simp [joinWith, h3, hs]⟩
        intro x hx
        simp only [List.mem_cons] at hx
        rcases hx with rfl | hx
        · exact .nil
        · exact h2 x (by simpa using hx)
      · refine ⟨(t :: p) :: ps, by simp, ?_, ?_⟩
        · intro x hx
          simp only [List.mem_cons] at hx
          rcases hx with rfl | hx
          · exact .tok ht hs (h2 p (by simp))
          · exact h2 x (by simp [hx])
        · cases ps <;> simp [joinWith] at h3 ⊢ <;> exact h3
  | @pair o c a b hb ha _ _ ih =>
    obtain ⟨ps, h1, h2, h3⟩ := ih
    cases ps with
    | nil => exact absurd rfl h1
    | cons p ps =>
      refine ⟨(o :: (a ++ c :: p)) :: ps, by simp, ?_, ?_⟩
      · intro x hx
        simp only [List.mem_cons] at hx
        rcases hx with rfl | hx
        · exact .pair hb ha (h2 p (by simp))
        · exact h2 x (by simp [hx])
      · cases ps <;> simp [joinWith] at h3 ⊢ <;> rw [← h3] <;> simp

/-! ### exact characterisation of the balance check -/

theorem pushPop_noOpen {t : Tok} (h : ∀ o c, Bracket o c → t ≠ o) (st : List Ch) :
    pushPop st t = st ∨ (∃ x, st = x :: pushPop st t ∧ Bracket [x] t) := by
  have h1 := h _ _ .round
  have h2 := h _ _ .square
  have h3 := h _ _ .curly
  unfold pushPop
  simp only [h1, h2, h3, if_false]
  cases st with
  | nil => left; simp
  | cons x st =>
    simp only [List.head?_cons, List.tail_cons, Option.some.injEq]
    split
    · rename_i h; right; obtain ⟨rfl, rfl⟩ := h; exact ⟨_, rfl, .round⟩
    · split
      · rename_i h; right; obtain ⟨rfl, rfl⟩ := h; exact ⟨_, rfl, .square⟩
      · split
        · rename_i h; right; obtain ⟨rfl, rfl⟩ := h; exact ⟨_, rfl, .curly⟩
        · left; rfl

theorem bracket_func {o o' c : Tok} (h : Bracket o c) (h' : Bracket o' c) : o = o' := by
  cases h <;> cases h' <;> rfl

/-- Stack steps are monotone for the sublist order. -/
theorem pushPop_sublist {s t : List Ch} (h : s.Sublist t) (x : Tok) : (pushPop s x).Sublist (pushPop t x) := by
  by_cases ho : ∃ o c, Bracket o c ∧ x = o
  · obtain ⟨o, c, hb, rfl⟩ := ho
    obtain ⟨y, _, hy⟩ := pushPop_open hb
    rw [hy, hy]; exact List.Sublist.cons_cons _ h
  · have hno : ∀ o c, Bracket o c → x ≠ o := fun o c hb e => ho ⟨o, c, hb, e⟩
    have hsub : ∀ u : List Ch, (pushPop u x).Sublist u := by
      intro u
      rcases pushPop_noOpen hno u with e | ⟨y, e, _⟩
      · rw [e]; exact List.Sublist.refl _
      · rw [e]; exact (List.Sublist.cons y (by rw [← e]; exact List.Sublist.refl _))
    rcases pushPop_noOpen hno t with e | ⟨y, e, hb⟩
    · rw [e]; exact (hsub s).trans h
    · rw [e] at h
      cases h with
      | cons _ h' => exact (hsub s).trans h'
      | cons_cons _ h' =>
        rw [pushPop_close hb y rfl]; exact h'

theorem openersClosed_stack {w : List Tok} (h : OpenersClosed w) : ∀ st, (w.foldl pushPop st).Sublist st := by
  induction h with
  | nil => intro st; exact List.Sublist.refl _
  | @skip t ts ht _ ih =>
    intro st
    rw [List.foldl_cons]
    refine (ih _).trans ?_
    rcases pushPop_noOpen ht st with e | ⟨y, e, _⟩
    · rw [e]; exact List.Sublist.refl _
    · rw [e]; exact (List.Sublist.cons y (by rw [← e]; exact List.Sublist.refl _))
  | @pair o c a b hb _ _ ih1 ih2 =>
    intro st
    obtain ⟨x, hx, ho⟩ := pushPop_open hb
    rw [List.foldl_cons, List.foldl_append, List.foldl_cons, ho]
    refine (ih2 _).trans ?_
    have := pushPop_sublist (ih1 (x :: st)) c
    rwa [pushPop_close hb x hx] at this

theorem openersClosed_of_stack : ∀ (n : Nat) (w : List Tok) (st : List Ch), w.length ≤ n → w.foldl pushPop st = [] →
    match st with
    | [] => OpenersClosed w
    | x :: st' => ∃ a c b, w = a ++ c :: b ∧ Bracket [x] c ∧ OpenersClosed a ∧ b.foldl pushPop st' = [] := by
  intro n
  induction n with
  | zero =>
    intro w st hl h
    have : w = [] := List.length_eq_zero_iff.1 (by omega)
    subst this
    simp at h
    subst h
    exact .nil
  | succ n ih =>
    intro w st hl h
    cases w with
    | nil => simp at h; subst h; exact .nil
    | cons t ts =>
      have hl' : ts.length ≤ n := by simpa using hl
      rw [List.foldl_cons] at h
      by_cases ho : ∃ o c, Bracket o c ∧ t = o
      · obtain ⟨o, c, hb, rfl⟩ := ho
        obtain ⟨y, hy, hpush⟩ := pushPop_open hb
        rw [hpush] at h
        obtain ⟨a, c', b, e, hb', ha, hf⟩ := ih ts (y :: st) hl' h
        subst e
        simp only [List.length_append, List.length_cons] at hl'
        rw [← hy] at hb'
        cases st with
        | nil => exact .pair hb' ha (ih b [] (by omega) hf)
        | cons x st' =>
          obtain ⟨a2, c2, b2, e2, hb2, ha2, hf2⟩ := ih b (x :: st') (by omega) hf
          subst e2
          exact ⟨t :: (a ++ c' :: a2), c2, b2, by simp, hb2, .pair hb' ha ha2, hf2⟩
      · have hno : ∀ o c, Bracket o c → t ≠ o := fun o c hb e => ho ⟨o, c, hb, e⟩
        rcases pushPop_noOpen hno st with e | ⟨y, e, hb⟩
        · rw [e] at h
          have := ih ts st hl' h
          cases st with
          | nil => exact .skip hno this
          | cons x st' =>
            obtain ⟨a, c, b, e, hb, ha, hf⟩ := this
            subst e
            exact ⟨t :: a, c, b, by simp, hb, .skip hno ha, hf⟩
        · generalize hst : pushPop st t = st'' at *
          subst e
          exact ⟨[], t, ts, rfl, hb, .nil, h⟩

theorem balancedV_iff (w : List Tok) : balancedV w = true ↔ OpenersClosed w := by
  rw [balancedV, balancedFrom_eq, List.isEmpty_iff]
  constructor
  · intro h; exact openersClosed_of_stack _ w [] (Nat.le_refl _) h
  · intro h; exact List.sublist_nil.1 (openersClosed_stack h [])

end ERegex

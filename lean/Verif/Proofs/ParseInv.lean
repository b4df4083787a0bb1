import Verif.Proofs.AnchorParse
/-!
# Invariants of the tree builder

Whatever the tree builder processes is a piece of the token list of the whole pattern; a property of nodes that every step keeps
holds of every built tree.
-/
set_option autoImplicit false
namespace ERegex
open Spec

/-! ## Pieces -/

theorem extractT_infix {op cl : Int} {ts c r : List Tok} (h : extractT op cl ts = some (c, r)) (hne : op ≠ cl) :
    c <+: ts ∧ r <:+ ts := by
  rcases extractAux_sound op cl hne ts 0 [] c r h with ⟨u, h1, h2, _, _⟩ | ⟨h1, h2, _, _⟩
  · simp only [List.nil_append] at h1
    subst h1
    rw [h2]
    exact ⟨List.prefix_append _ _, ⟨c ++ [[cl]], by simp⟩⟩
  · subst h1 h2; exact ⟨List.nil_prefix, List.nil_suffix⟩

theorem policyOf_suffix (ts : List Tok) : (policyOf ts).2 <:+ ts := by
  unfold policyOf
  split
  · exact List.suffix_cons _ _
  · exact List.suffix_cons _ _
  · exact List.suffix_refl _

theorem octalHead_suffix {h : Tok} {tl : List Tok} {v r} (e : classify.octalHead h tl = some (v, r)) : r <:+ tl := by
  unfold classify.octalHead at e
  split at e
  · rename_i a b c tl'
    split at e
    · simp at e; rw [← e.2]; exact ⟨[[b], [c]], rfl⟩
    · simp at e
  · simp at e

theorem hexHead_suffix {h : Tok} {tl : List Tok} {v r} (e : classify.hexHead h tl = some (v, r)) : r <:+ tl := by
  unfold classify.hexHead at e
  split at e
  · rename_i a b tl'
    split at e
    · simp at e; rw [← e.2]; exact ⟨[[a], [b]], rfl⟩
    · split at e
      · simp at e; rw [← e.2]; exact ⟨[[a]], rfl⟩
      · simp at e
  · rename_i a tl' _
    split at e
    · simp at e; rw [← e.2]; exact ⟨[[a]], rfl⟩
    · simp at e
  · simp at e

/-- The pieces of a step are pieces of its token list. -/
def Step.piece (ts : List Tok) : Step → Prop
  | .done | .finish | .fail => True
  | .node _ _ r | .start r | .quant _ r => r <:+: ts
  | .capture c r | .noncapture c r => c <:+: ts ∧ r <:+: ts

theorem cons_infix {x : Tok} {ts r : List Tok} (h : r <:+: ts) : r <:+: x :: ts := List.infix_cons h

theorem classify_piece (b : Bool) (ts : List Tok) : (classify b ts).piece ts := by
  unfold classify
  split
  · trivial
  · split
    · trivial
    · rename_i h
      obtain ⟨h1, h2⟩ := extractT_infix h (by decide)
      exact ⟨cons_infix (cons_infix (cons_infix h1.isInfix)), cons_infix (cons_infix (cons_infix h2.isInfix))⟩
  · split
    · trivial
    · rename_i h
      obtain ⟨h1, h2⟩ := extractT_infix h (by decide)
      exact ⟨cons_infix h1.isInfix, cons_infix h2.isInfix⟩
  · split
    · trivial
    · rename_i h
      obtain ⟨h1, h2⟩ := extractT_infix h (by decide)
      split
      · trivial
      · exact cons_infix (cons_infix h2.isInfix)
  · split
    · trivial
    · rename_i h
      obtain ⟨h1, h2⟩ := extractT_infix h (by decide)
      split
      · trivial
      · exact cons_infix h2.isInfix
  · split
    · trivial
    · rename_i c r h
      obtain ⟨h1, h2⟩ := extractT_infix h (by decide)
      exact cons_infix ((policyOf_suffix r).trans h2).isInfix
  · exact cons_infix (policyOf_suffix _).isInfix
  · exact cons_infix (policyOf_suffix _).isInfix
  · exact cons_infix (policyOf_suffix _).isInfix
  · trivial
  · split
    · rename_i h
      obtain ⟨h1, h2⟩ := extractT_infix h (by decide)
      split
      · trivial
      · exact cons_infix (cons_infix h2.isInfix)
    · trivial
  · split
    · rename_i h
      obtain ⟨h1, h2⟩ := extractT_infix h (by decide)
      split
      · trivial
      · exact cons_infix (cons_infix h2.isInfix)
    · trivial
  · rename_i hd tl _ _ _ _ _ _ _ _ h36 _ _
    split
    · exact cons_infix (List.infix_refl _)
    · split
      · rename_i h; exact cons_infix (octalHead_suffix h).isInfix
      · split
        · rename_i h; exact cons_infix (hexHead_suffix h).isInfix
        · split
          · trivial
          · exact cons_infix (List.infix_refl _)

theorem joinWith_piece (sep : Int) : ∀ (ps : List (List Tok)), ∀ p ∈ ps, p <:+: joinWith sep ps
  | [q], p, h => by simp at h; subst h; exact ⟨[], [], by simp [joinWith]⟩
  | q :: q' :: ps, p, h => by
    rcases List.mem_cons.1 h with rfl | h
    · exact ⟨[], [sep] :: joinWith sep (q' :: ps), by simp [joinWith]⟩
    · have := joinWith_piece sep (q' :: ps) p h
      have e : joinWith sep (q :: q' :: ps) = (q ++ [[sep]]) ++ joinWith sep (q' :: ps) := by simp [joinWith]
      rw [e]
      exact List.infix_append_of_infix_right this

theorem splitT_piece {ts p : List Tok} (h : p ∈ splitT 124 ts) : p <:+: ts := by
  have := joinWith_piece 124 (splitT 124 ts) p h
  rwa [splitT_joins] at this

/-! ## Items of a class -/

/-- How the tokens of a class become items: `a-b` is a range, an escape its terminal, anything else a literal. -/
inductive Items : List Tok → List Node → Prop
  | nil : Items [] []
  | range {a b : Int} {tl : List Tok} {r : List Node} : rangeOk a b = true → Items tl r →
      Items ([a] :: [45] :: [b] :: tl) (.simple (.range a b [91, a, 45, b, 93]) [] :: r)
  | esc {c : Int} {t : Node} {tl : List Tok} {r : List Node} : terminalOf [92, c] = some t → (∀ e tl', tl ≠ [45] :: e :: tl') →
      Items tl r → Items ([92, c] :: tl) (.simple t [] :: r)
  | chr {h : Tok} {tl : List Tok} {r : List Node} : h ≠ [] → (∀ c, h ≠ [92, c]) → (∀ e tl', tl ≠ [45] :: e :: tl') →
      Items tl r → Items (h :: tl) (.simple (.exact h h) [] :: r)

theorem classItems_items : ∀ (f : Nat) (ts : List Tok) (ns : List Node), classItems f ts = some ns → Items ts ns := by
  intro f
  induction f with
  | zero =>
    intro ts ns h
    cases ts with
    | nil => simp [classItems] at h; subst h; exact .nil
    | cons x ts => simp [classItems] at h
  | succ f ih =>
    intro ts ns h
    unfold classItems at h
    split at h
    · simp at h; subst h; exact .nil
    · simp at *
    · cases ‹f + 1 = Nat.succ _›
      split at h
      · split at h
        · rename_i hok
          simp only [Option.map_eq_some_iff] at h
          obtain ⟨r, hr, rfl⟩ := h
          exact .range hok (ih _ _ hr)
        · simp at h
      · simp at h
    · rename_i hr _
      cases ‹f + 1 = Nat.succ _›
      split at h
      · simp at h
      · rename_i ht
        simp only [Option.map_eq_some_iff] at h
        obtain ⟨r, hr', rfl⟩ := h
        exact .esc ht hr (ih _ _ hr')
    · rename_i hr he _
      cases ‹f + 1 = Nat.succ _›
      split at h
      · simp at h
      · rename_i hne
        simp only [Option.map_eq_some_iff] at h
        obtain ⟨r, hr', rfl⟩ := h
        exact .chr hne he hr (ih _ _ hr')

theorem classNode_items {c : List Tok} {nd : Node} (h : classNode c = some nd) : ∃ ns, Items c ns ∧ ns ≠ [] ∧ nd = .alt ns := by
  unfold classNode at h
  split at h
  · simp at h
  · simp at h
  · rename_i ns hne hi
    simp at h
    exact ⟨ns, classItems_items _ _ _ hi, hne, h.symm⟩

/-! ## The invariant -/

/-- A property of nodes that the steps of the tree builder keep, for patterns with token list `full`. -/
structure Kept (full : List Tok) (P : Node → Prop) : Prop where
  node : ∀ (b : Bool) (ts : List Tok) (n : Node) (rs : Bool) (r : List Tok), ts <:+: full → classify b ts = .node n rs r → P n
  policy : ∀ (pol : Policy) (m : Node) (lo hi : Nat), P m → P (pol.node m lo hi)
  rep : ∀ (m : Node) (n : Nat), P m → P (.repeated m n [])
  add : ∀ (l n t : Node), P l → P n → addChild (some l) n = some t → P t
  bos : P (.simple .bos [])
  eol : P (.simple .eol [])
  capture : ∀ (bs : List Node) (gi : Nat), bs ≠ [] → (∀ b ∈ bs, P b) → P (.group (.alt bs) gi [])
  noncapture : ∀ (bs : List Node), bs ≠ [] → (∀ b ∈ bs, P b) → P (.simple (.alt bs) [])

theorem quantifiedNode_shape {m n : Node} {data : List Tok} {pol : Policy} (h : quantifiedNode m data pol = some n) :
    (∃ lo hi, n = pol.node m lo hi) ∨ (∃ k, n = .repeated m k []) := by
  unfold quantifiedNode at h
  split at h
  · simp only [Option.map_eq_some_iff] at h
    obtain ⟨k, _, rfl⟩ := h
    exact Or.inr ⟨k, rfl⟩
  · simp only [Option.map_eq_some_iff] at h
    obtain ⟨k, _, rfl⟩ := h
    exact Or.inl ⟨_, _, rfl⟩
  · split at h
    · simp at h; exact Or.inl ⟨_, _, h.symm⟩
    · simp at h
  · simp at h

/-- What the quantifiers build. -/
theorem classify_quant_shape {b : Bool} {ts r : List Tok} {q : Node → Option Node} (h : classify b ts = .quant q r) (m n : Node)
    (hq : q m = some n) : (∃ pol : Policy, ∃ lo hi, n = pol.node m lo hi) ∨ (∃ k, n = .repeated m k []) := by
  unfold classify at h
  split at h
  · simp at h
  · split at h <;> simp at h
  · split at h <;> simp at h
  · split at h
    · simp at h
    · split at h <;> simp at h
  · split at h
    · simp at h
    · split at h <;> simp at h
  · split at h
    · simp at h
    · simp only [Step.quant.injEq] at h
      rw [← h.1] at hq
      rcases quantifiedNode_shape hq with ⟨lo, hi, e⟩ | h
      · exact Or.inl ⟨_, lo, hi, e⟩
      · exact Or.inr h
  · simp only [Step.quant.injEq] at h
    rw [← h.1] at hq
    simp at hq
    exact Or.inl ⟨_, _, _, hq.symm⟩
  · simp only [Step.quant.injEq] at h
    rw [← h.1] at hq
    simp at hq
    exact Or.inl ⟨_, _, _, hq.symm⟩
  · simp only [Step.quant.injEq] at h
    rw [← h.1] at hq
    simp at hq
    exact Or.inl ⟨_, _, _, hq.symm⟩
  · simp at h
  · split at h
    · split at h <;> simp at h
    · simp at h
  · split at h
    · split at h <;> simp at h
    · simp at h
  · split at h
    · simp at h
    · split at h
      · simp at h
      · split at h
        · simp at h
        · split at h <;> simp at h

theorem exactNode_shape {v : List Ch} {n : Node} (h : exactNode v = some n) : v ≠ [] ∧ n = .simple (.exact v v) [] := by
  unfold exactNode at h
  split at h
  · simp at h
  · rename_i hv; simp at h; exact ⟨hv, h.symm⟩

theorem octalHead_ne {h : Tok} {tl : List Tok} {v r} (e : classify.octalHead h tl = some (v, r)) : v ≠ [] := by
  unfold classify.octalHead at e
  split at e
  · split at e
    · simp at e; rw [← e.1]; simp
    · simp at e
  · simp at e

theorem hexHead_ne {h : Tok} {tl : List Tok} {v r} (e : classify.hexHead h tl = some (v, r)) : v ≠ [] := by
  unfold classify.hexHead at e
  split at e
  · split at e
    · simp at e; rw [← e.1]; simp
    · split at e
      · simp at e; rw [← e.1]; simp
      · simp at e
  · split at e
    · simp at e; rw [← e.1]; simp
    · simp at e
  · simp at e

/-- What the single steps build: a literal, a terminal, a class or a negated class. -/
theorem classify_node_shape {b : Bool} {ts r : List Tok} {n : Node} {rs : Bool} (h : classify b ts = .node n rs r) :
    (∃ v, v ≠ [] ∧ n = .simple (.exact v v) []) ∨
    (∃ hd t, terminalOf hd = some t ∧ n = .simple t []) ∨
    (∃ tl c r' nd, ts = [91] :: tl ∧ extractT 91 93 tl = some (c, r') ∧ classNode c = some nd ∧ n = .simple nd []) ∨
    (∃ tl c r' nd, ts = [91] :: [94] :: tl ∧ extractT 91 93 tl = some (c, r') ∧ classNode c = some nd ∧
      n = .simple (.negated nd) []) := by
  unfold classify at h
  split at h
  · simp at h
  · split at h <;> simp at h
  · split at h <;> simp at h
  · split at h
    · simp at h
    · rename_i he
      split at h
      · simp at h
      · rename_i hn
        simp only [Step.node.injEq] at h
        exact Or.inr (Or.inr (Or.inr ⟨_, _, _, _, rfl, he, hn, h.1.symm⟩))
  · split at h
    · simp at h
    · rename_i he
      split at h
      · simp at h
      · rename_i hn
        simp only [Step.node.injEq] at h
        exact Or.inr (Or.inr (Or.inl ⟨_, _, _, _, rfl, he, hn, h.1.symm⟩))
  · split at h <;> simp at h
  · simp at h
  · simp at h
  · simp at h
  · simp at h
  · split at h
    · split at h
      · simp at h
      · rename_i hn
        simp only [Option.bind_eq_some_iff] at hn
        obtain ⟨v, _, hn⟩ := hn
        simp only [Step.node.injEq] at h
        obtain ⟨h1, h2⟩ := exactNode_shape hn
        exact Or.inl ⟨v, h1, by rw [← h.1, h2]⟩
    · simp at h
  · split at h
    · split at h
      · simp at h
      · rename_i hn
        simp only [Option.bind_eq_some_iff] at hn
        obtain ⟨v, _, hn⟩ := hn
        simp only [Step.node.injEq] at h
        obtain ⟨h1, h2⟩ := exactNode_shape hn
        exact Or.inl ⟨v, h1, by rw [← h.1, h2]⟩
    · simp at h
  · split at h
    · simp at h
    · split at h
      · rename_i he
        simp only [Step.node.injEq] at h
        exact Or.inl ⟨_, octalHead_ne he, h.1.symm⟩
      · split at h
        · rename_i he
          simp only [Step.node.injEq] at h
          exact Or.inl ⟨_, hexHead_ne he, h.1.symm⟩
        · split at h
          · simp at h
          · rename_i ht
            simp only [Step.node.injEq] at h
            exact Or.inr (Or.inl ⟨_, _, ht, h.1.symm⟩)

theorem addChild_kept {full : List Tok} {P : Node → Prop} (K : Kept full P) {last : Option Node} (hl : ∀ l, last = some l → P l)
    {n t : Node} (hn : P n) (h : addChild last n = some t) : P t := by
  cases last with
  | none => simp [addChild] at h; subst h; exact hn
  | some l => exact K.add l n t (hl l rfl) hn h

theorem buildAll_all {h : List Tok → Option Node} {P : Node → Prop} : ∀ {bs : List (List Tok)} {ns : List Node},
    (∀ b ∈ bs, ∀ t, h b = some t → P t) → buildAll h bs = some ns → (∀ n ∈ ns, P n) ∧ ns.length = bs.length
  | [], ns, _, e => by simp [buildAll] at e; subst e; simp
  | b :: bs, ns, hb, e => by
    simp only [buildAll] at e
    split at e
    · simp at e
    · rename_i t ht
      simp only [Option.map_eq_some_iff] at e
      obtain ⟨r, hr, rfl⟩ := e
      obtain ⟨h1, h2⟩ := buildAll_all (fun b' hb' => hb b' (by simp [hb'])) hr
      refine ⟨?_, by simp [h2]⟩
      intro n hn
      rcases List.mem_cons.1 hn with rfl | hn
      · exact hb b (by simp) _ ht
      · exact h1 n hn

theorem helper_kept {full : List Tok} {P : Node → Prop} (K : Kept full P) : ∀ (f : Nat) (last : Option Node) (ts : List Tok)
    (gi : Nat) (t : Node), ts <:+: full → (∀ l, last = some l → P l) → helper f last ts gi = some t → P t := by
  intro f
  induction f with
  | zero => intro last ts gi t _ _ h; simp [helper] at h
  | succ f ih =>
    intro last ts gi t hi hl h
    have hp := classify_piece last.isNone ts
    simp only [helper] at h
    split at h
    · exact hl _ h
    · simp at h
    · exact addChild_kept K hl K.eol h
    · rename_i rest hc
      rw [hc] at hp
      exact ih _ _ _ _ (hp.trans hi) (by rintro l ⟨⟩; exact K.bos) h
    · rename_i q rest hc
      rw [hc] at hp
      split at h
      · simp at h
      · rename_i m
        simp only [Option.bind_eq_some_iff] at h
        obtain ⟨n, hn, h⟩ := h
        refine ih _ _ _ _ (hp.trans hi) ?_ h
        rintro l ⟨⟩
        rcases classify_quant_shape hc _ _ hn with ⟨pol, lo, hi', rfl⟩ | ⟨k, rfl⟩
        · exact K.policy _ _ _ _ (hl m rfl)
        · exact K.rep _ _ (hl m rfl)
    · rename_i n reset rest hc
      simp only [Option.bind_eq_some_iff] at h
      obtain ⟨n', hn, h⟩ := h
      rw [hc] at hp
      exact addChild_kept K hl (ih _ _ _ _ (hp.trans hi) (by rintro l ⟨⟩; exact K.node _ _ _ _ _ hi hc) hn) h
    · rename_i c rest hc
      simp only [Option.bind_eq_some_iff] at h
      obtain ⟨bs, hb, n, hn, h⟩ := h
      rw [hc] at hp
      obtain ⟨h1, h2⟩ := buildAll_all (P := P)
        (fun b hb t ht => ih _ _ _ _ (((splitT_piece hb).trans hp.1).trans hi) (by simp) ht) hb
      have hne : bs ≠ [] := by
        rintro rfl
        exact splitT_ne_nil c (List.length_eq_zero_iff.1 (by simpa using h2.symm))
      exact addChild_kept K hl (ih _ _ _ _ (hp.2.trans hi) (by rintro l ⟨⟩; exact K.capture _ _ hne h1) hn) h
    · rename_i c rest hc
      simp only [Option.bind_eq_some_iff] at h
      obtain ⟨bs, hb, n, hn, h⟩ := h
      rw [hc] at hp
      obtain ⟨h1, h2⟩ := buildAll_all (P := P)
        (fun b hb t ht => ih _ _ _ _ (((splitT_piece hb).trans hp.1).trans hi) (by simp) ht) hb
      have hne : bs ≠ [] := by
        rintro rfl
        exact splitT_ne_nil c (List.length_eq_zero_iff.1 (by simpa using h2.symm))
      exact addChild_kept K hl (ih _ _ _ _ (hp.2.trans hi) (by rintro l ⟨⟩; exact K.noncapture _ hne h1) hn) h

/-- Every built tree is an alternation of trees with the property. -/
theorem build_kept {p : List Int} {ts : List Tok} {b : Node} (ht : tokenize p = some ts) (hb : build p = some b)
    {P : Node → Prop} (K : Kept ts P) : ∃ ns, b = .alt ns ∧ ns ≠ [] ∧ ∀ n ∈ ns, P n := by
  simp only [build, ht, Option.map_eq_some_iff] at hb
  obtain ⟨ns, hn, rfl⟩ := hb
  obtain ⟨h1, h2⟩ := topBranches_all (Q := P) (by
    intro a hm gi t he
    exact helper_kept K _ _ _ _ _ (splitT_piece hm) (by simp) he) hn
  refine ⟨ns, rfl, ?_, h1⟩
  rintro rfl
  exact splitT_ne_nil ts (List.length_eq_zero_iff.1 (by simpa using h2.symm))

/-! ## Long tokens occur only in braces -/

/-- One character, or an escape. -/
def Short (x : Tok) : Prop := x.length = 1 ∨ ∃ d, x = [92, d]

/-- Every token that is not short directly follows `{` or `,`. -/
def AdjOk : List Tok → Prop
  | [] | [_] => True
  | y :: x :: r => (y = [123] ∨ y = [44] ∨ Short x) ∧ AdjOk (x :: r)

theorem adjOk_cons {y : Tok} {ts : List Tok} (h : AdjOk ts) (hx : ∀ x, ts.head? = some x → Short x) : AdjOk (y :: ts) := by
  cases ts with
  | nil => trivial
  | cons x r => exact ⟨Or.inr (Or.inr (hx x rfl)), h⟩

theorem adjOk_of_tokens {p : List Int} {ts : List Tok} (h : Tokens p ts) : AdjOk ts ∧ ∀ x, ts.head? = some x → Short x := by
  induction h with
  | nil => exact ⟨trivial, by simp⟩
  | plain _ _ _ ih => exact ⟨adjOk_cons ih.1 ih.2, by rintro x ⟨⟩; exact Or.inl rfl⟩
  | escaped _ ih => exact ⟨adjOk_cons ih.1 ih.2, by rintro x ⟨⟩; exact Or.inr ⟨_, rfl⟩⟩
  | trailing => exact ⟨trivial, by rintro x ⟨⟩; exact Or.inl rfl⟩
  | brace1 _ _ _ ih =>
    exact ⟨⟨Or.inl rfl, Or.inr (Or.inr (Or.inl rfl)), adjOk_cons ih.1 ih.2⟩, by rintro x ⟨⟩; exact Or.inl rfl⟩
  | brace2 _ _ _ ih =>
    exact ⟨⟨Or.inl rfl, Or.inr (Or.inr (Or.inl rfl)), Or.inr (Or.inl rfl), adjOk_cons ih.1 ih.2⟩, by rintro x ⟨⟩; exact Or.inl rfl⟩
  | brace3 _ _ _ _ _ ih =>
    exact ⟨⟨Or.inl rfl, Or.inr (Or.inr (Or.inl rfl)), Or.inr (Or.inl rfl), Or.inr (Or.inr (Or.inl rfl)), adjOk_cons ih.1 ih.2⟩,
      by rintro x ⟨⟩; exact Or.inl rfl⟩

theorem adjOk_at : ∀ {u v : List Tok} {y x : Tok}, AdjOk (u ++ y :: x :: v) → y = [123] ∨ y = [44] ∨ Short x
  | [], v, y, x, h => h.1
  | [z], v, y, x, h => h.2.1
  | z :: w :: u, v, y, x, h => by
    exact adjOk_at (u := w :: u) h.2

theorem adjOk_infix {full : List Tok} (h : AdjOk full) {z y x : Tok} {v : List Tok} (hi : z :: y :: x :: v <:+: full) :
    y = [123] ∨ y = [44] ∨ Short x := by
  obtain ⟨s, t, e⟩ := hi
  rw [← e] at h
  have e2 : s ++ z :: y :: x :: v ++ t = (s ++ [z]) ++ y :: x :: (v ++ t) := by simp
  rw [e2] at h
  exact adjOk_at h

end ERegex

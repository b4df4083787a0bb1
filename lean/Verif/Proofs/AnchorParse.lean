import Verif.Proofs.Anchor
import Verif.Proofs.Groups
import Verif.Proofs.Denote
/-!
# Anchors written in the pattern
-/
set_option autoImplicit false
namespace ERegex
open Spec

/-! ## Start -/

theorem classify_caret (tl : List Tok) : classify true ([94] :: tl) = .start tl := rfl

/-- The tokens that quantify what precedes them. -/
def quantTok (t : Tok) : Bool := decide (t = [42]) || decide (t = [43]) || decide (t = [63]) || decide (t = [123])

theorem classify_quant {b : Bool} {ts : List Tok} {q : Node → Option Node} {r : List Tok} (h : classify b ts = .quant q r) :
    ∃ t tl, ts = t :: tl ∧ quantTok t = true := by
  unfold classify at h
  split at h
  · simp at h
  · split at h <;> simp at h
  · split at h <;> simp at h
  · split at h
    · simp at h
    · split at h <;> simp at h
  · split at h
    · simp at h
    · split at h <;> simp at h
  · exact ⟨_, _, rfl, by simp [quantTok]⟩
  · exact ⟨_, _, rfl, by simp [quantTok]⟩
  · exact ⟨_, _, rfl, by simp [quantTok]⟩
  · exact ⟨_, _, rfl, by simp [quantTok]⟩
  · simp at h
  · split at h
    · split at h <;> simp at h
    · simp at h
  · split at h
    · split at h <;> simp at h
    · simp at h
  · split at h
    · simp at h
    · split at h
      · simp at h
      · split at h
        · simp at h
        · split at h <;> simp at h

theorem classify_start {b : Bool} {ts : List Tok} {r : List Tok} (h : classify b ts = .start r) :
    b = true ∧ ts = [94] :: r := by
  unfold classify at h
  split at h
  · simp at h
  · split at h <;> simp at h
  · split at h <;> simp at h
  · split at h
    · simp at h
    · split at h <;> simp at h
  · split at h
    · simp at h
    · split at h <;> simp at h
  · split at h <;> simp at h
  · simp at h
  · simp at h
  · simp at h
  · simp at h
  · split at h
    · split at h <;> simp at h
    · simp at h
  · split at h
    · split at h <;> simp at h
    · simp at h
  · split at h
    · rename_i h1; simp at h; subst h; exact ⟨h1.2, by rw [h1.1]⟩
    · split at h
      · simp at h
      · split at h
        · simp at h
        · split at h <;> simp at h

theorem addChild_bos {cs : List Node} {n t : Node} (h : addChild (some (.simple .bos cs)) n = some t) : anchored t = true := by
  simp [addChild] at h; subst h; rfl

/-- A sequence that begins with `^`, not followed by a quantifier, is anchored. -/
theorem helper_anchored {f : Nat} {rest : List Tok} {gi : Nat} {t : Node} (hq : ∀ x tl, rest = x :: tl → quantTok x = false)
    (h : helper f none ([94] :: rest) gi = some t) : anchored t = true := by
  cases f with
  | zero => simp [helper] at h
  | succ f =>
    simp only [helper, Option.isNone_none, classify_caret] at h
    cases f with
    | zero => simp [helper] at h
    | succ f =>
      simp only [helper, Option.isNone_some] at h
      split at h
      · simp at h; subst h; rfl
      · simp at h
      · exact addChild_bos h
      · rename_i r hc
        have := (classify_start hc).1
        simp at this
      · rename_i q r hc
        obtain ⟨x, tl, h1, h2⟩ := classify_quant hc
        rw [hq x tl h1] at h2
        simp at h2
      · simp only [Option.bind_eq_some_iff] at h
        obtain ⟨n, _, h⟩ := h
        exact addChild_bos h
      · simp only [Option.bind_eq_some_iff] at h
        obtain ⟨bs, _, n, _, h⟩ := h
        exact addChild_bos h
      · simp only [Option.bind_eq_some_iff] at h
        obtain ⟨bs, _, n, _, h⟩ := h
        exact addChild_bos h

theorem topBranches_all {Q : Node → Prop} {f : Nat} : ∀ {bs : List (List Tok)} {gi : Nat} {ns : List Node},
    (∀ b ∈ bs, ∀ gi t, helper f none b gi = some t → Q t) → topBranches f bs gi = some ns → (∀ n ∈ ns, Q n) ∧ ns.length = bs.length
  | [], gi, ns, _, h => by simp [topBranches] at h; subst h; simp
  | b :: bs, gi, ns, hQ, h => by
    simp only [topBranches] at h
    split at h
    · simp at h
    · rename_i t ht
      simp only [Option.map_eq_some_iff] at h
      obtain ⟨r, hr, rfl⟩ := h
      obtain ⟨h1, h2⟩ := topBranches_all (fun b hb => hQ b (by simp [hb])) hr
      refine ⟨?_, by simp [h2]⟩
      intro n hn
      rcases List.mem_cons.1 hn with rfl | hn
      · exact hQ b (by simp) gi _ ht
      · exact h1 n hn

theorem anchoreds_iff (cs : List Node) : anchoreds cs = true ↔ ∀ c ∈ cs, anchored c = true := by
  induction cs with
  | nil => simp [anchoreds]
  | cons c cs ih => simp [anchoreds, ih]

theorem rounds_keep {Q : Node → Bool} (h : ∀ t, Q t = true → Q (opt t []) = true) : ∀ (k : Nat) (t : Node), Q t = true → Q (rounds k t) = true
  | 0, _, ht => ht
  | k + 1, t, ht => rounds_keep h k _ (h t ht)

/-- Every top-level alternative begins with `^`. -/
theorem compile_anchored {p : List Int} {ts : List Tok} {t : Node} (ht : tokenize p = some ts) (h : compile p = some t)
    (ha : ∀ a ∈ splitT 124 ts, ∃ rest, a = [94] :: rest ∧ ∀ x tl, rest = x :: tl → quantTok x = false) : anchored t = true := by
  simp only [compile, Option.bind_eq_some_iff] at h
  obtain ⟨b, hb, ho⟩ := h
  have hba : anchored b = true := by
    simp only [build, ht, Option.map_eq_some_iff] at hb
    obtain ⟨ns, hn, rfl⟩ := hb
    obtain ⟨h1, h2⟩ := topBranches_all (Q := fun n => anchored n = true) (by
      intro a hm gi t he
      obtain ⟨rest, rfl, hq⟩ := ha a hm
      exact helper_anchored hq he) hn
    simp only [anchored, Bool.and_eq_true, Bool.not_eq_true', List.isEmpty_eq_false_iff, anchoreds_iff]
    refine ⟨?_, h1⟩
    rintro rfl
    have : splitT 124 ts ≠ [] := splitT_ne_nil _
    exact this (List.length_eq_zero_iff.1 (by simpa using h2.symm))
  obtain ⟨k, rfl⟩ := optFix_rounds _ _ _ ho
  exact rounds_keep (fun t h => anchored_opt t [] h) k b hba

/-! ## End -/

/-- Nodes as the builder makes them: no children yet. -/
def bare? : Node → Bool
  | .simple _ cs | .alt cs | .greedy _ _ _ cs | .lazy _ _ _ cs | .possessive _ _ _ cs | .repeated _ _ cs | .group _ _ cs => cs.isEmpty
  | _ => false

theorem addChild_ended {last : Option Node} {n t : Node} (hl : ∀ l, last = some l → bare? l = true) (hn : ended n = true)
    (h : addChild last n = some t) : ended t = true := by
  cases last with
  | none => simp [addChild] at h; subst h; exact hn
  | some l =>
    have := hl l rfl
    cases l <;> simp [bare?] at this <;> subst this <;> simp [addChild] at h <;> subst h <;> simp [ended, endeds, hn]

theorem policy_bare (p : Policy) (m : Node) (lo hi : Nat) : bare? (p.node m lo hi) = true := by cases p <;> rfl

theorem quantifiedNode_bare {m n : Node} {d : List Tok} {p : Policy} (h : quantifiedNode m d p = some n) : bare? n = true := by
  unfold quantifiedNode at h
  split at h
  · simp only [Option.map_eq_some_iff] at h; obtain ⟨_, _, rfl⟩ := h; rfl
  · simp only [Option.map_eq_some_iff] at h; obtain ⟨_, _, rfl⟩ := h; exact policy_bare _ _ _ _
  · split at h
    · simp at h; subst h; exact policy_bare _ _ _ _
    · simp at h
  · simp at h

/-- The last token stays the last token. -/
def Keeps (ts r : List Tok) : Prop := ts.getLast? = some [36] → r.getLast? = some [36]

theorem keeps_append {a r : List Tok} (h : ∀ x, a.getLast? = some x → x ≠ [36]) : Keeps (a ++ r) r := by
  intro hl
  cases r with
  | nil => simp at hl; exact absurd rfl (h _ hl)
  | cons x r => rw [List.getLast?_append] at hl; simpa using hl

theorem Keeps.trans {a b c : List Tok} (h1 : Keeps a b) (h2 : Keeps b c) : Keeps a c := fun h => h2 (h1 h)

theorem keeps_cons {x : Tok} {r : List Tok} (h : x ≠ [36]) : Keeps (x :: r) r :=
  keeps_append (a := [x]) (by simpa using h)

theorem policyOf_keeps (ts : List Tok) : Keeps ts (policyOf ts).2 := by
  unfold policyOf
  split
  · exact keeps_cons (by decide)
  · exact keeps_cons (by decide)
  · exact id

theorem extractT_keeps {op cl : Int} {ts c r : List Tok} (h : extractT op cl ts = some (c, r)) (hne : op ≠ cl) (hcl : cl ≠ 36) :
    (c = [] ∧ r = []) ∨ Keeps ts r := by
  rcases extractAux_sound op cl hne ts 0 [] c r h with ⟨u, h1, h2, _, _⟩ | ⟨h1, h2, _, _⟩
  · right
    rw [h2, List.append_cons]
    refine keeps_append ?_
    intro x hx
    simp at hx
    subst hx
    simpa using hcl
  · exact Or.inl ⟨h1, h2⟩

/-- What a step leaves. -/
def Step.keeps (ts : List Tok) : Step → Prop
  | .done => ts = []
  | .finish | .fail => True
  | .node n _ r => bare? n = true ∧ Keeps ts r
  | .start r => Keeps ts r
  | .quant q r => (∀ m n, q m = some n → bare? n = true) ∧ ((∀ m, q m = none) ∨ Keeps ts r)
  | .capture c r | .noncapture c r => c = [] ∨ Keeps ts r

theorem octalHead_keeps {h : Tok} {tl : List Tok} {v r} (e : classify.octalHead h tl = some (v, r)) : Keeps (h :: tl) r := by
  unfold classify.octalHead at e
  split at e
  · rename_i a b c tl'
    split at e
    · rename_i hc
      simp at e
      rw [← e.2]
      refine keeps_append (a := [[92, a], [b], [c]]) ?_
      intro x hx
      simp at hx; subst hx
      simp only [Bool.and_eq_true, isOctal, decide_eq_true_eq] at hc
      simp; omega
    · simp at e
  · simp at e

theorem hexHead_keeps {h : Tok} {tl : List Tok} {v r} (e : classify.hexHead h tl = some (v, r)) : Keeps (h :: tl) r := by
  unfold classify.hexHead at e
  split at e
  · rename_i a b tl'
    split at e
    · rename_i hc
      simp at e
      rw [← e.2]
      refine keeps_append (a := [[92, 120], [a], [b]]) ?_
      intro x hx
      simp at hx; subst hx
      simp only [Bool.and_eq_true, isHex, decide_eq_true_eq] at hc
      simp; omega
    · split at e
      · rename_i hc
        simp at e
        rw [← e.2]
        refine keeps_append (a := [[92, 120], [a]]) ?_
        intro x hx
        simp at hx; subst hx
        simp only [Bool.and_eq_true, isHex, decide_eq_true_eq] at hc
        simp; omega
      · simp at e
  · rename_i a tl' _
    split at e
    · rename_i hc
      simp at e
      rw [← e.2]
      refine keeps_append (a := [[92, 120], [a]]) ?_
      intro x hx
      simp at hx; subst hx
      simp only [Bool.and_eq_true, isHex, decide_eq_true_eq] at hc
      simp; omega
    · simp at e
  · simp at e

theorem exactNode_bare {v : List Ch} {n : Node} (h : exactNode v = some n) : bare? n = true := by
  unfold exactNode at h
  split at h
  · simp at h
  · simp at h; subst h; rfl

theorem classify_keeps (b : Bool) (ts : List Tok) : (classify b ts).keeps ts := by
  unfold classify
  split
  · rfl
  · split
    · trivial
    · rename_i h
      rcases extractT_keeps h (by decide) (by decide) with ⟨h1, h2⟩ | h1
      · exact Or.inl h1
      · exact Or.inr ((keeps_cons (by decide)).trans ((keeps_cons (by decide)).trans ((keeps_cons (by decide)).trans h1)))
  · split
    · trivial
    · rename_i h
      rcases extractT_keeps h (by decide) (by decide) with ⟨h1, h2⟩ | h1
      · exact Or.inl h1
      · exact Or.inr ((keeps_cons (by decide)).trans h1)
  · split
    · trivial
    · rename_i h
      split
      · trivial
      · rename_i hn
        refine ⟨rfl, ?_⟩
        rcases extractT_keeps h (by decide) (by decide) with ⟨h1, h2⟩ | h1
        · subst h1; simp [classNode, classItems] at hn
        · exact (keeps_cons (by decide)).trans ((keeps_cons (by decide)).trans h1)
  · split
    · trivial
    · rename_i h
      split
      · trivial
      · rename_i hn
        refine ⟨rfl, ?_⟩
        rcases extractT_keeps h (by decide) (by decide) with ⟨h1, h2⟩ | h1
        · subst h1; simp [classNode, classItems] at hn
        · exact (keeps_cons (by decide)).trans h1
  · split
    · trivial
    · rename_i c r h
      refine ⟨fun m n hq => quantifiedNode_bare hq, ?_⟩
      rcases extractT_keeps h (by decide) (by decide) with ⟨h1, h2⟩ | h1
      · left; intro m; subst h1; rfl
      · right; exact (keeps_cons (by decide)).trans (h1.trans (policyOf_keeps r))
  · refine ⟨fun m n hq => ?_, Or.inr ((keeps_cons (by decide)).trans (policyOf_keeps _))⟩
    simp at hq; subst hq; exact policy_bare _ _ _ _
  · refine ⟨fun m n hq => ?_, Or.inr ((keeps_cons (by decide)).trans (policyOf_keeps _))⟩
    simp at hq; subst hq; exact policy_bare _ _ _ _
  · refine ⟨fun m n hq => ?_, Or.inr ((keeps_cons (by decide)).trans (policyOf_keeps _))⟩
    simp at hq; subst hq; exact policy_bare _ _ _ _
  · trivial
  · split
    · rename_i h
      split
      · trivial
      · rename_i hn
        simp only [Option.bind_eq_some_iff] at hn
        obtain ⟨_, _, hn⟩ := hn
        refine ⟨exactNode_bare hn, ?_⟩
        rcases extractT_keeps h (by decide) (by decide) with ⟨h1, h2⟩ | h1
        · simp at h1
        · exact (keeps_cons (by decide)).trans ((keeps_cons (by decide)).trans h1)
    · trivial
  · split
    · rename_i h
      split
      · trivial
      · rename_i hn
        simp only [Option.bind_eq_some_iff] at hn
        obtain ⟨_, _, hn⟩ := hn
        refine ⟨exactNode_bare hn, ?_⟩
        rcases extractT_keeps h (by decide) (by decide) with ⟨h1, h2⟩ | h1
        · simp at h1
        · exact (keeps_cons (by decide)).trans ((keeps_cons (by decide)).trans h1)
    · trivial
  · rename_i hd tl _ _ _ _ _ _ _ _ h36 _ _
    have hk : Keeps (hd :: tl) tl := by
      intro hl
      cases tl with
      | nil => simp at hl; exact absurd rfl (h36 hl)
      | cons x r => simpa using hl
    split
    · exact hk
    · split
      · rename_i h; exact ⟨rfl, octalHead_keeps h⟩
      · split
        · rename_i h; exact ⟨rfl, hexHead_keeps h⟩
        · split
          · trivial
          · exact ⟨rfl, hk⟩

theorem buildAll_nil {h : List Tok → Option Node} (h0 : h [] = none) : buildAll h (splitT 124 []) = none := by
  have : splitT 124 ([] : List Tok) = [[]] := by rw [splitT_nosep]; simp
  simp [this, buildAll, h0]

theorem helper_none_nil (f gi : Nat) : helper f none [] gi = none := by cases f <;> simp [helper, classify_nil]

/-- A sequence that ends with `$` gives a tree that ends with `$`. -/
theorem helper_ended : ∀ (f : Nat) (last : Option Node) (ts : List Tok) (gi : Nat) (t : Node),
    (∀ l, last = some l → bare? l = true) → ts.getLast? = some [36] → helper f last ts gi = some t → ended t = true := by
  intro f
  induction f with
  | zero => intro last ts gi t _ _ h; simp [helper] at h
  | succ f ih =>
    intro last ts gi t hl ht h
    have hk := classify_keeps last.isNone ts
    simp only [helper] at h
    split at h
    · rename_i hc; rw [hc] at hk; simp only [Step.keeps] at hk; subst hk; simp at ht
    · simp at h
    · exact addChild_ended hl rfl h
    · rename_i hc; rw [hc] at hk
      exact ih _ _ _ _ (by simp [bare?]) (hk ht) h
    · rename_i q rest hc; rw [hc] at hk
      split at h
      · simp at h
      · rename_i m
        simp only [Option.bind_eq_some_iff] at h
        obtain ⟨n, hn, h⟩ := h
        rcases hk.2 with h0 | h0
        · rw [h0] at hn; simp at hn
        · exact ih _ _ _ _ (by rintro l ⟨⟩; exact hk.1 _ _ hn) (h0 ht) h
    · rename_i n reset rest hc; rw [hc] at hk
      simp only [Option.bind_eq_some_iff] at h
      obtain ⟨n', hn, h⟩ := h
      exact addChild_ended hl (ih _ _ _ _ (by rintro l ⟨⟩; exact hk.1) (hk.2 ht) hn) h
    · rename_i c rest hc; rw [hc] at hk
      simp only [Option.bind_eq_some_iff] at h
      obtain ⟨bs, hb, n, hn, h⟩ := h
      rcases hk with h0 | h0
      · subst h0; rw [buildAll_nil (helper_none_nil _ _)] at hb; simp at hb
      · exact addChild_ended hl (ih _ _ _ _ (by rintro l ⟨⟩; rfl) (h0 ht) hn) h
    · rename_i c rest hc; rw [hc] at hk
      simp only [Option.bind_eq_some_iff] at h
      obtain ⟨bs, hb, n, hn, h⟩ := h
      rcases hk with h0 | h0
      · subst h0; rw [buildAll_nil (helper_none_nil _ _)] at hb; simp at hb
      · exact addChild_ended hl (ih _ _ _ _ (by rintro l ⟨⟩; rfl) (h0 ht) hn) h

theorem endeds_iff (cs : List Node) : endeds cs = true ↔ ∀ c ∈ cs, ended c = true := by
  induction cs with
  | nil => simp [endeds]
  | cons c cs ih => simp [endeds, ih]

/-- Every top-level alternative ends with `$`. -/
theorem compile_ended {p : List Int} {ts : List Tok} {t : Node} (ht : tokenize p = some ts) (h : compile p = some t)
    (ha : ∀ a ∈ splitT 124 ts, a.getLast? = some [36]) : ended t = true := by
  simp only [compile, Option.bind_eq_some_iff] at h
  obtain ⟨b, hb, ho⟩ := h
  have hba : ended b = true := by
    simp only [build, ht, Option.map_eq_some_iff] at hb
    obtain ⟨ns, hn, rfl⟩ := hb
    obtain ⟨h1, h2⟩ := topBranches_all (Q := fun n => ended n = true) (by
      intro a hm gi t he
      exact helper_ended _ _ _ _ _ (by simp) (ha a hm) he) hn
    simp only [ended, Bool.and_eq_true, Bool.not_eq_true', List.isEmpty_eq_false_iff, endeds_iff]
    refine ⟨?_, h1⟩
    rintro rfl
    have : splitT 124 ts ≠ [] := splitT_ne_nil _
    exact this (List.length_eq_zero_iff.1 (by simpa using h2.symm))
  obtain ⟨k, rfl⟩ := optFix_rounds _ _ _ ho
  exact rounds_keep (fun t h => ended_opt t [] h) k b hba

end ERegex

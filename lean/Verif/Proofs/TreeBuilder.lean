import Verif.Model.TreeBuilder
import Verif.Model.Optimize
import Verif.Proofs.Utilities
import Verif.Proofs.Tokenizer
set_option autoImplicit false
namespace ERegex
open Spec

/-! ## every step of the tree builder removes a token -/

theorem policyOf_le (ts : List Tok) : (policyOf ts).2.length ≤ ts.length := by
  unfold policyOf; split <;> simp

theorem octalHead_le {h : Tok} {tl : List Tok} {v r} (e : classify.octalHead h tl = some (v, r)) :
    r.length ≤ tl.length := by
  unfold classify.octalHead at e
  split at e
  · split at e
    · simp at e; rw [← e.2]; simp; omega
    · simp at e
  · simp at e

theorem hexHead_le {h : Tok} {tl : List Tok} {v r} (e : classify.hexHead h tl = some (v, r)) :
    r.length ≤ tl.length := by
  unfold classify.hexHead at e
  split at e
  · split at e
    · simp at e; rw [← e.2]; simp; omega
    · split at e
      · simp at e; rw [← e.2]; simp
      · simp at e
  · split at e
    · simp at e; rw [← e.2]; simp
    · simp at e
  · simp at e

/-- The measure of a step. -/
def Step.small (n : Nat) : Step → Prop
  | .done | .finish | .fail => True
  | .node _ _ r | .start r | .quant _ r => r.length < n
  | .capture c r | .noncapture c r => c.length < n ∧ r.length < n

theorem classify_small (b : Bool) (ts : List Tok) : (classify b ts).small ts.length := by
  unfold classify
  split
  · trivial
  · split
    · trivial
    · rename_i h; have := extractT_lengths h (by decide)
      simp [Step.small]; omega
  · split
    · trivial
    · rename_i h; have := extractT_lengths h (by decide)
      simp [Step.small]; omega
  · split
    · trivial
    · rename_i h; have := extractT_lengths h (by decide)
      split
      · trivial
      · simp [Step.small]; omega
  · split
    · trivial
    · rename_i h; have := extractT_lengths h (by decide)
      split
      · trivial
      · simp [Step.small]; omega
  · split
    · trivial
    · rename_i c r h; have := extractT_lengths h (by decide)
      have h2 := policyOf_le r
      simp [Step.small]; omega
  · simp only [Step.small, List.length_cons]; exact Nat.lt_succ_of_le (policyOf_le _)
  · simp only [Step.small, List.length_cons]; exact Nat.lt_succ_of_le (policyOf_le _)
  · simp only [Step.small, List.length_cons]; exact Nat.lt_succ_of_le (policyOf_le _)
  · trivial
  · split
    · rename_i h; have := extractT_lengths h (by decide)
      split
      · trivial
      · simp [Step.small]; omega
    · trivial
  · split
    · rename_i h; have := extractT_lengths h (by decide)
      split
      · trivial
      · simp [Step.small]; omega
    · trivial
  · split
    · simp [Step.small]
    · split
      · rename_i h; have := octalHead_le h; simp [Step.small]; omega
      · split
        · rename_i h; have := hexHead_le h; simp [Step.small]; omega
        · split
          · trivial
          · simp [Step.small]

theorem splitAux_le (sep : Int) (n : Nat) : ∀ (ts cur : List Tok) (done : List (List Tok)),
    cur.length + ts.length ≤ n → (∀ d ∈ done, d.length ≤ n) → ∀ p ∈ splitAux sep ts cur done, p.length ≤ n := by
  intro ts
  induction ts with
  | nil =>
    intro cur done h hd p hp
    simp [splitAux, reverseT_eq] at hp
    rcases hp with hp | rfl
    · exact hd p hp
    · simpa using h
  | cons t ts ih =>
    intro cur done h hd
    simp only [splitAux]
    split
    · apply ih
      · simp at h ⊢; omega
      · intro d hdm
        simp at hdm
        rcases hdm with rfl | hdm
        · simp at h; omega
        · exact hd d hdm
    · apply ih
      · simp at h ⊢; omega
      · exact hd

theorem splitT_le {sep : Int} {ts p : List Tok} (h : p ∈ splitT sep ts) : p.length ≤ ts.length :=
  splitAux_le sep ts.length ts [] [] (by simp) (by simp) p h

theorem buildAll_congr {h1 h2 : List Tok → Option Node} : ∀ (bs : List (List Tok)),
    (∀ b ∈ bs, h1 b = h2 b) → buildAll h1 bs = buildAll h2 bs := by
  intro bs
  induction bs with
  | nil => intro _; rfl
  | cons b bs ih =>
    intro h
    simp only [buildAll]
    rw [h b (by simp), ih (fun x hx => h x (by simp [hx]))]

/-- More fuel than tokens changes nothing. -/
theorem helper_fuel : ∀ (n f1 f2 : Nat) (last : Option Node) (ts : List Tok) (gi : Nat),
    ts.length ≤ n → n < f1 → n < f2 → helper f1 last ts gi = helper f2 last ts gi := by
  intro n
  induction n with
  | zero =>
    intro f1 f2 last ts gi h h1 h2
    have : ts = [] := List.length_eq_zero_iff.1 (by omega)
    subst this
    obtain ⟨f1, rfl⟩ : ∃ k, f1 = k + 1 := ⟨f1 - 1, by omega⟩
    obtain ⟨f2, rfl⟩ : ∃ k, f2 = k + 1 := ⟨f2 - 1, by omega⟩
    simp [helper, classify]
  | succ n ih =>
    intro f1 f2 last ts gi h h1 h2
    obtain ⟨f1, rfl⟩ : ∃ k, f1 = k + 1 := ⟨f1 - 1, by omega⟩
    obtain ⟨f2, rfl⟩ : ∃ k, f2 = k + 1 := ⟨f2 - 1, by omega⟩
    have hs := classify_small last.isNone ts
    have ihh : ∀ (l : Option Node) (t : List Tok) (g : Nat), t.length < ts.length → helper f1 l t g = helper f2 l t g :=
      fun l t g ht => ih f1 f2 l t g (by omega) (by omega) (by omega)
    simp only [helper]
    split <;> rename_i hc <;> rw [hc] at hs <;> simp only [Step.small] at hs
    all_goals try rfl
    · exact ihh _ _ _ hs
    · split
      · rfl
      · congr 1; funext x; exact ihh _ _ _ hs
    · rw [ihh _ _ _ hs]
    · rw [buildAll_congr (h2 := fun b => helper f2 none b (gi + 1))
        _ (fun b hb => ihh _ _ _ (Nat.lt_of_le_of_lt (splitT_le hb) hs.1))]
      congr 1; funext x; rw [ihh _ _ _ hs.2]
    · rw [buildAll_congr (h2 := fun b => helper f2 none b gi)
        _ (fun b hb => ihh _ _ _ (Nat.lt_of_le_of_lt (splitT_le hb) hs.1))]
      congr 1; funext x; rw [ihh _ _ _ hs.2]

/-! ## plain characters -/

/-- A letter or a digit. -/
def Alnum (c : Int) : Prop := (48 ≤ c ∧ c ≤ 57) ∨ (65 ≤ c ∧ c ≤ 90) ∨ (97 ≤ c ∧ c ≤ 122)

theorem classify_alnum (b : Bool) (c : Int) (h : Alnum c) (tl : List Tok) :
    classify b ([c] :: tl) = .node (.simple (.exact [c] [c]) []) false tl := by
  unfold Alnum at h
  have h1 : c ≠ 40 := by omega
  have h2 : c ≠ 91 := by omega
  have h3 : c ≠ 123 := by omega
  have h4 : c ≠ 42 := by omega
  have h5 : c ≠ 43 := by omega
  have h6 : c ≠ 63 := by omega
  have h7 : c ≠ 36 := by omega
  have h8 : c ≠ 46 := by omega
  have h9 : c ≠ 94 := by omega
  have ht : terminalOf [c] = some (.exact [c] [c]) := by
    unfold terminalOf; split <;> simp_all
  unfold classify
  split
  all_goals try (rename_i e; simp [h1, h2, h3, h4, h5, h6, h7] at e; done)
  rename_i e
  simp only [List.cons.injEq] at e
  rw [← e.1, ← e.2, if_neg (by simp [h9])]
  simp [classify.octalHead, classify.hexHead, ht]

theorem classify_noncapture (b : Bool) (tl : List Tok) :
    classify b ([40] :: [63] :: [58] :: tl) =
      match extractT 40 41 tl with
      | none => .fail
      | some (c, r) => .noncapture c r := by
  simp only [classify]; rfl

theorem classify_capture (b : Bool) (tl : List Tok) (h : ∀ tl0, tl ≠ [63] :: [58] :: tl0) :
    classify b ([40] :: tl) =
      match extractT 40 41 tl with
      | none => .fail
      | some (c, r) => .capture c r := by
  conv => lhs; unfold classify
  split
  all_goals try (rename_i e; simp at e; done)
  · rename_i e; simp at e; exact absurd e (h _)
  · rename_i e; simp at e; subst e; rfl
  · rename_i h2 h1 _ _ _ _ _ _ _ _ _ e; simp at e; exact absurd e.1.symm (by simpa using h1)

/-! ## patterns without alternatives -/

theorem splitAux_nosep (sep : Int) : ∀ (ts cur : List Tok) (done : List (List Tok)), [sep] ∉ ts →
    splitAux sep ts cur done = done.reverse ++ [cur ++ ts] := by
  intro ts
  induction ts with
  | nil => intro cur done _; simp [splitAux, reverseT_eq]
  | cons t ts ih =>
    intro cur done h
    simp only [List.mem_cons, not_or] at h
    simp only [splitAux]
    rw [if_neg (fun e => h.1 e.1.symm), ih _ _ h.2]
    simp

theorem splitT_nosep {sep : Int} {ts : List Tok} (h : [sep] ∉ ts) : splitT sep ts = [ts] := by
  simp [splitT, splitAux_nosep sep ts [] [] h]

theorem build_single {p : List Ch} {ts : List Tok} (ht : Tokens p ts) (hs : [124] ∉ ts) :
    build p = (helper (ts.length + 1) none ts 0).map (fun t => .alt [t]) := by
  simp only [build, (tokenize_iff p ts).2 ht, splitT_nosep hs, topBranches]
  cases helper (ts.length + 1) none ts 0 <;> simp

theorem compile_exact (v : List Ch) : optimize (.alt [.simple (.exact v v) []]) = some (.exact v v) := by
  simp [optimize, optFix, nodeSize, nodeSizes, opt]

theorem toChar_small {n : Int} (h0 : -128 ≤ n) (h1 : n ≤ 127) : toChar n = n := by
  show (n + 128) % 256 - 128 = n; omega

theorem nat_or_shift (k x y : Nat) (hy : y < 2 ^ k) : (x <<< k) ||| y = 2 ^ k * x + y := by
  rw [Nat.shiftLeft_eq, Nat.mul_comm, Nat.two_pow_add_eq_or_of_lt hy]

/-! ## equations of `classify` -/

theorem classify_nil (b : Bool) : classify b [] = .done := rfl

theorem classify_brace (b : Bool) (tl : List Tok) :
    classify b ([123] :: tl) =
      match extractT 123 125 tl with
      | none => .fail
      | some (c, r) => .quant (fun m => quantifiedNode m c (policyOf r).1) (policyOf r).2 := rfl

theorem classify_star (b : Bool) (tl : List Tok) :
    classify b ([42] :: tl) = .quant (fun m => some ((policyOf tl).1.node m 0 umax)) (policyOf tl).2 := rfl

theorem classify_plus (b : Bool) (tl : List Tok) :
    classify b ([43] :: tl) = .quant (fun m => some ((policyOf tl).1.node m 1 umax)) (policyOf tl).2 := rfl

theorem classify_opt (b : Bool) (tl : List Tok) :
    classify b ([63] :: tl) = .quant (fun m => some ((policyOf tl).1.node m 0 1)) (policyOf tl).2 := rfl

theorem classify_dollar (b : Bool) : classify b [[36]] = .finish := rfl

theorem classify_negclass (b : Bool) (tl : List Tok) :
    classify b ([91] :: [94] :: tl) =
      match extractT 91 93 tl with
      | none => .fail
      | some (c, r) =>
        match classNode c with
        | none => .fail
        | some n => .node (.simple (.negated n) []) true r := rfl

theorem classify_hexbrace (b : Bool) (tl : List Tok) :
    classify b ([92, 120] :: [123] :: tl) =
      match extractT 123 125 tl with
      | some ([d], r) =>
        match (hexToBin d).bind exactNode with
        | none => .fail
        | some n => .node n false r
      | _ => .fail := rfl

theorem classify_octbrace (b : Bool) (tl : List Tok) :
    classify b ([92, 111] :: [123] :: tl) =
      match extractT 123 125 tl with
      | some ([d], r) =>
        match (octalToBin d).bind exactNode with
        | none => .fail
        | some n => .node n false r
      | _ => .fail := rfl

theorem classify_class (b : Bool) (tl : List Tok) (h : ∀ tl0, tl ≠ [94] :: tl0) :
    classify b ([91] :: tl) =
      match extractT 91 93 tl with
      | none => .fail
      | some (c, r) =>
        match classNode c with
        | none => .fail
        | some n => .node (.simple n []) true r := by
  rw [classify]
  · rfl
  · exact h

theorem classify_escape (b : Bool) (x : Int) (tl : List Tok) (h : ∀ tl0, tl ≠ [123] :: tl0) :
    classify b ([92, x] :: tl) =
      match classify.octalHead [92, x] tl with
      | some (v, r) => .node (.simple (.exact v v) []) false r
      | none =>
      match classify.hexHead [92, x] tl with
      | some (v, r) => .node (.simple (.exact v v) []) false r
      | none =>
      match terminalOf [92, x] with
      | none => .fail
      | some t => .node (.simple t []) false tl := by
  rw [classify]
  · rw [if_neg (by simp)]; rfl
  all_goals simp
  all_goals (intro tl0 _; exact h tl0)

/-! ## equations of `helper` -/

theorem helper_nil (f : Nat) (last : Option Node) (gi : Nat) : helper (f + 1) last [] gi = last := by
  simp [helper, classify_nil]

theorem helper_node {f : Nat} {last : Option Node} {ts : List Tok} {gi : Nat} {n : Node} {b : Bool} {rest : List Tok}
    (h : classify last.isNone ts = .node n b rest) :
    helper (f + 1) last ts gi = (helper f (some n) rest (if b then nextIdx n else gi)).bind (addChild last) := by
  rw [helper, h]

theorem helper_quant {f : Nat} {m : Node} {ts : List Tok} {gi : Nat} {q : Node → Option Node} {rest : List Tok}
    (h : classify false ts = .quant q rest) :
    helper (f + 1) (some m) ts gi = (q m).bind (fun n => helper f (some n) rest gi) := by
  rw [helper, show (some m).isNone = false from rfl, h]

theorem helper_alnum {f : Nat} {last : Option Node} {gi : Nat} {c : Int} (hc : Alnum c) (tl : List Tok) :
    helper (f + 1) last ([c] :: tl) gi = (helper f (some (.simple (.exact [c] [c]) [])) tl gi).bind (addChild last) :=
  helper_node (classify_alnum _ c hc tl)

theorem helper_brace {f : Nat} {m : Node} {tl : List Tok} {gi : Nat} {c r : List Tok}
    (h : extractT 123 125 tl = some (c, r)) :
    helper (f + 1) (some m) ([123] :: tl) gi =
      (quantifiedNode m c (policyOf r).1).bind (fun n => helper f (some n) (policyOf r).2 gi) :=
  helper_quant (by rw [classify_brace, h])

end ERegex

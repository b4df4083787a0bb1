import Verif.Props.Lexer
import Verif.Props.NestedMore
/-!
# C57 for definitions with nested groups
-/
set_option autoImplicit false
namespace ERegex.Props
open ERegex ERegex.Spec
open ERegex.Conformance (lit m)

theorem dollar_dollars : ∀ (s : Sq), s.dollar = true → s.dollars = true
  | .nil _, h => h
  | .cons _ _ s, h => by simp only [Sq.dollars, Bool.or_eq_true]; exact Or.inr (dollar_dollars s h)

/-- A pattern that the tokenizer handles: anchored with `^` it meets the condition of C49, or the one for nested groups. -/
def readable (s : Sq) : Bool := (Alts.last true s).capRegular || (Alts.last true s).committed

theorem readable_does (s : Sq) (hr : readable s = true) (hc : ∀ c ∈ s.spell, c ∈ allChars) : Compiles Sq.dollars s := by
  simp only [readable, Bool.or_eq_true] at hr
  rcases hr with hr | hr
  · obtain ⟨t, ht, h⟩ := compile_does s hr hc
    exact ⟨t, ht, fun cx hq hlen hn => h cx hq hlen (fun hd => hn (dollar_dollars s hd))⟩
  · exact does_of (C55_nested_partial s hr (hat_chars hc))

/-- **C57 (partial), nested groups.** As `C57_tokenizer_partial`; each of the definitions may contain groups nested to any depth.  Missing: the patterns that meet neither condition, in particular a
top-level `|` (C42). -/
theorem C57_nested_partial (ds : List ((Nat × Sq) ⊕ Sq)) (hr : ∀ x ∈ ds, readable (seqOf x) = true) (hc : ∀ x ∈ ds, ∀ c ∈ (seqOf x).spell, c ∈ allChars) :
    ∃ d, splitDefs (ds.map spelled) = some d ∧ ∀ (cx : Ctx), (∀ c ∈ cx.query, c ∈ allChars) → cx.query.length < 4294967295 →
      ((∃ x ∈ ds, (seqOf x).dollars = true) → cx.post.head? = some 0) → ∀ (fuel : Nat), cx.query.length ≤ fuel →
        ∃ it, TokIt.make cx fuel d = some it ∧ ∀ n, cx.query.length ≤ n →
          TokIt.visit cx fuel d n it = some ((lex (tokensOf ds) (sepsOf ds) cx.query).map tok, true) :=
  tokenizer_of ds (fun x hx => readable_does _ (hr x hx) (hc x hx))

/-! ## the hypotheses are met -/

private def digits : Sq := .cons (.esc 100) (.plus .greedy) (.nil false)
private def grp (b : Sq) : Atom := .group false (.last false b)
/-- `[a-z]+`, `\d+(?:[.]\d+(?:e\d+)?)?`; separator `\s+`. -/
def numberDefs : List ((Nat × Sq) ⊕ Sq) :=
  [.inl (0, .cons (.cls false [.rng 97 122] false) (.plus .greedy) (.nil false)),
   .inl (1, .cons (.esc 100) (.plus .greedy) (.cons (grp (.cons (.cls false [.chr 46] false) .once (.cons (.esc 100) (.plus .greedy)
     (.cons (grp (.cons (.chr 101) .once (.cons (.esc 100) (.plus .greedy) (.nil false)))) (.opt .greedy) (.nil false))))) (.opt .greedy) (.nil false))),
   .inr (.cons (.esc 115) (.plus .greedy) (.nil false))]
example : numberDefs.map spelled = [.inl (0, str "[a-z]+"), .inl (1, str "\\d+(?:[.]\\d+(?:e\\d+)?)?"), .inr (str "\\s+")] := by decide +kernel
example : (∀ x ∈ numberDefs, readable (seqOf x) = true) ∧ (∀ x ∈ numberDefs, ∀ c ∈ (seqOf x).spell, c ∈ allChars) ∧
    (Alts.last true (seqOf (numberDefs[1]))).capRegular = false := by decide +kernel
example : lex (tokensOf numberDefs) (sepsOf numberDefs) (str "x 1.5e10 2. y") = [(0, 0, 1), (1, 2, 8), (1, 9, 10)] ∧
    runTokens (numberDefs.map spelled) "x 1.5e10 2. y" = some ([⟨some (0, 1), 0⟩, ⟨some (2, 8), 1⟩, ⟨some (9, 10), 1⟩], true) := by decide +kernel

end ERegex.Props

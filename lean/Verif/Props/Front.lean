import Verif.Proofs.Tokenizer
import Verif.Proofs.Utilities
import Verif.Proofs.TreeBuilder
/-!
# C01–C06 : tokens, numbers, brackets, alternatives

Property theorems; helper lemmas are in `Proofs/`.  Specifications (`Spec.Tokens`, `Spec.BracesClosed`,
`Spec.decimal`, `Spec.depth`, `Spec.WellNested`, …) are in `Spec/Front.lean` and do not mention the model.
-/
set_option autoImplicit false
namespace ERegex.Props
open ERegex ERegex.Spec

/-! ## C01 -/

/-- **C01.** Concatenating the tokens of a pattern gives back the pattern. -/
theorem C01_tokens_concat (p : List Int) (ts : List (List Int)) (h : tokenize p = some ts) : ts.flatten = p :=
  tokens_flatten ((tokenize_iff p ts).1 h)

/-- **C01.** The tokens are exactly those of the specification `Tokens` (single characters, `\c` pairs, `{…}` blocks cut
at the delimiters and the first comma). -/
theorem C01_tokens_exact (p : List Int) (ts : List (List Int)) : tokenize p = some ts ↔ Tokens p ts := tokenize_iff p ts

theorem tokens_escape {p : List Int} {ts : List (List Int)} (h : Tokens p ts) (hb : 123 ∉ p) :
    ∀ pre post t, ts = pre ++ t :: post →
      (∃ c, c ≠ 92 ∧ t = [c]) ∨ (∃ c, t = [92, c]) ∨ (t = [92] ∧ post = []) := by
  induction h with
  | nil => intro pre post t e; simp at e
  | @plain c p ts h1 h2 _ ih =>
    intro pre post t e
    cases pre with
    | nil => simp at e; left; exact ⟨c, h1, e.1.symm⟩
    | cons x pre => simp at e; exact ih (by simp at hb; exact hb.2) pre post t e.2
  | @escaped c p ts _ ih =>
    intro pre post t e
    cases pre with
    | nil => simp at e; right; left; exact ⟨c, e.1.symm⟩
    | cons x pre => simp at e; exact ih (by simp at hb; exact hb.2) pre post t e.2
  | trailing =>
    intro pre post t e
    cases pre with
    | nil => simp at e; right; right; exact ⟨e.1.symm, by simp [← e.2]⟩
    | cons x pre => simp at e
  | brace1 => simp at hb
  | brace2 => simp at hb
  | brace3 => simp at hb

/-- **C01.** A backslash is never separated from the character it escapes: in a pattern without braces every token is a
single character other than `\`, or `\` together with the next character; a lone `\` can only be the last token.
(Inside `{…}` the library does not treat `\` as an escape, cf. `C01_tokens_exact`.) -/
theorem C01_escape_kept (p : List Int) (ts pre post : List (List Int)) (t : List Int) (h : tokenize p = some ts)
    (hb : 123 ∉ p) (e : ts = pre ++ t :: post) :
    (∃ c, c ≠ 92 ∧ t = [c]) ∨ (∃ c, t = [92, c]) ∨ (t = [92] ∧ post = []) :=
  tokens_escape ((tokenize_iff p ts).1 h) hb pre post t e

-- non-vacuity: `a\)b{2,3}c` and a pattern without braces
example : tokenize (str "a\\)b{2,3}c") =
    some [[97], [92, 41], [98], [123], [50], [44], [51], [125], [99]] := by decide +kernel
example : tokenize (str "a\\)c") = some [[97], [92, 41], [99]] ∧ (123 : Int) ∉ str "a\\)c" := by decide +kernel

/-! ## C02 -/

/-- **C02.** A pattern tokenizes exactly when every `{` reached by the scan has a later `}`. -/
theorem C02_tokenizes_iff (p : List Int) : (∃ ts, tokenize p = some ts) ↔ BracesClosed p := by
  constructor
  · rintro ⟨ts, h⟩; exact tokens_closed ((tokenize_iff p ts).1 h)
  · intro h; obtain ⟨ts, h⟩ := closed_tokens h; exact ⟨ts, (tokenize_iff p ts).2 h⟩

/-- **C02.** In particular a pattern without an opening brace always tokenizes. -/
theorem C02_no_brace (p : List Int) (h : 123 ∉ p) : ∃ ts, tokenize p = some ts := by
  rw [C02_tokenizes_iff]
  have key : ∀ n (p : List Int), p.length ≤ n → 123 ∉ p → BracesClosed p := by
    intro n
    induction n with
    | zero =>
      intro p hl _
      have : p = [] := List.length_eq_zero_iff.1 (by omega)
      subst this; exact .nil
    | succ n ih =>
      intro p hl hp
      cases p with
      | nil => exact .nil
      | cons c p =>
        simp only [List.mem_cons, not_or] at hp
        simp only [List.length_cons] at hl
        by_cases hc : c = 92
        · subst hc
          cases p with
          | nil => exact .trailing
          | cons d p =>
            simp only [List.mem_cons, not_or] at hp
            simp only [List.length_cons] at hl
            exact .escaped (ih p (by omega) hp.2.2)
        · exact .plain hc (fun e => hp.1 e.symm) (ih p (by omega) hp.2)
  exact key p.length p (Nat.le_refl _) h

/-- **C02.** A pattern whose only `{` is not followed by `}` does not tokenize. -/
theorem C02_unclosed (a b : List Int) (ha : 92 ∉ a) (ha' : 123 ∉ a) (hb : 125 ∉ b) : tokenize (a ++ 123 :: b) = none := by
  cases h : tokenize (a ++ 123 :: b) with
  | none => rfl
  | some ts =>
    exfalso
    have hc := (C02_tokenizes_iff _).1 ⟨ts, h⟩
    clear h
    induction a with
    | nil =>
      simp only [List.nil_append] at hc
      generalize hq : (123 :: b : List Int) = q at hc
      cases hc with
      | nil => simp at hq
      | plain h1 h2 _ => simp at hq; exact h2 hq.1.symm
      | escaped => simp at hq
      | trailing => simp at hq
      | block h1 _ => simp at hq; rw [hq] at hb; simp at hb
    | cons c a ih =>
      simp only [List.mem_cons, not_or] at ha ha'
      simp only [List.cons_append] at hc
      generalize hq : (c :: (a ++ 123 :: b) : List Int) = q at hc
      cases hc with
      | nil => simp at hq
      | plain h1 h2 h3 => simp at hq; rw [← hq.2] at h3; exact ih ha.2 ha'.2 h3
      | escaped => simp at hq; exact ha.1 hq.1.symm
      | trailing => simp at hq
      | block h1 _ => simp at hq; exact ha'.1 hq.1.symm

example : BracesClosed (str "a{2}\\{") := by
  have : str "a{2}\\{" = [97, 123] ++ ([50] ++ 125 :: [92, 123]) := by decide
  rw [this]
  exact .plain (by decide) (by decide) (.block (by decide) (.escaped .nil))
example : tokenize (str "a{2") = none := by decide +kernel

/-! ## C03 -/

/-- **C03.** The bound read from a digit string is its decimal value modulo `2^32` (and the empty string does not
compile). -/
theorem C03_bound_value (s : List Int) (n : Nat) (h : packStringToNumber s = some n) :
    (n : Int) = decimal s % 4294967296 := by
  unfold packStringToNumber at h
  split at h
  · simp at h
  · simp at h; rw [← h]; exact toNumberAux_eq s

/-- **C03.** Every non-empty string gives a bound. -/
theorem C03_bound_exists (s : List Int) : (packStringToNumber s).isSome ↔ s ≠ [] := by
  unfold packStringToNumber; split <;> simp_all

/-- **C03.** Printing a positive 32-bit bound and reading it again gives the same bound. -/
theorem C03_round_trip (n : Nat) (h0 : 0 < n) (h1 : n < 4294967296) :
    packStringToNumber (numberToPack n) = some n := by
  have hne : numberToPack n ≠ [] := numberToPackAux_ne_nil n n [] (Or.inr ⟨h0, h0⟩)
  unfold packStringToNumber
  rw [if_neg hne]
  have h2 : decimal (numberToPack n) = n := by
    have := numberToPackAux_spec n n [] (Nat.le_refl _)
    simpa [numberToPack, decimal] using this
  have h3 := toNumberAux_eq (numberToPack n)
  rw [h2] at h3
  simp only [Option.some.injEq]
  omega

/-- **C03.** The printed bound consists of decimal digits and its decimal value is the bound. -/
theorem C03_printed_digits (n : Nat) : (∀ c ∈ numberToPack n, IsDigit c) ∧ decimal (numberToPack n) = n := by
  refine ⟨numberToPackAux_digits n n [] (by simp), ?_⟩
  have := numberToPackAux_spec n n [] (Nat.le_refl _)
  simpa [numberToPack, decimal] using this

/-- **C03, refuted for 0.** The bound 0 is printed as the empty string, which cannot be read back. -/
theorem C03_zero_refuted : numberToPack 0 = [] ∧ packStringToNumber (numberToPack 0) = none := by decide

example : packStringToNumber (str "4294967297") = some 1 ∧ packStringToNumber (str "0042") = some 42 ∧
    numberToPack 1204 = str "1204" := by decide +kernel

/-! ## C04 -/

/-- **C04.** If `content` closes everything it opens (depth 0 at its end, never negative before), then the content
extracted from `content ⟨closer⟩ rest` is `content`, and `rest` remains. -/
theorem C04_extract_matching (op cl : Int) (hne : op ≠ cl) (content rest : List (List Int))
    (h0 : depth op cl content = 0) (hp : ∀ a b, content = a ++ b → 0 ≤ depth op cl a) :
    extractT op cl (content ++ [cl] :: rest) = some (content, rest) := by
  have := extractAux_complete op cl hne content 0 [] rest (by simpa using h0)
    (fun a b e => by simpa using hp a b e)
  simpa [extractT] using this

/-- **C04.** Conversely whatever is extracted ends at the matching closer; the only other outcome is the empty content
with nothing left, when the closer is missing. -/
theorem C04_extract_only (op cl : Int) (hne : op ≠ cl) (ts content rest : List (List Int))
    (h : extractT op cl ts = some (content, rest)) :
    (ts = content ++ [cl] :: rest ∧ depth op cl content = 0 ∧ (∀ a b, content = a ++ b → 0 ≤ depth op cl a)) ∨
    (content = [] ∧ rest = [] ∧ ∀ a b, ts = a ++ b → 0 ≤ depth op cl a) := by
  rcases extractAux_sound op cl hne ts 0 [] content rest h with ⟨u, h1, h2, h3, h4⟩ | ⟨h1, h2, h3, h4⟩
  · left
    simp at h1; subst h1
    refine ⟨h2, by simpa using h3, fun a b e => by simpa using h4 a b e⟩
  · right
    exact ⟨h1, h2, fun a b e => by simpa using h4 a b e⟩

/-- **C04.** A group whose parenthesis is never closed does not compile (whatever precedes it). -/
theorem C04_unclosed_group (f : Nat) (last : Option Node) (tl : List (List Int)) (gi : Nat)
    (hopen : ∀ a b, tl = a ++ b → 0 ≤ depth 40 41 a) : helper f last ([40] :: tl) gi = none := by
  have hex : ∀ tl : List (List Int), (∀ a b, tl = a ++ b → 0 ≤ depth 40 41 a) →
      extractT 40 41 tl = none ∨ extractT 40 41 tl = some ([], []) := by
    intro tl hopen
    cases h : extractT 40 41 tl with
    | none => left; rfl
    | some cr =>
      right
      obtain ⟨c, r⟩ := cr
      rcases C04_extract_only 40 41 (by decide) tl c r h with ⟨h1, h2, _⟩ | ⟨h1, h2, _⟩
      · exfalso
        have := hopen (c ++ [[41]]) r (by simp [h1])
        have hd : depth 40 41 (c ++ [[41]]) = depth 40 41 c - 1 := by
          simp [depth, List.count_append, List.count_cons]; omega
        omega
      · rw [h1, h2]
  have hnone : ∀ f gi, buildAll (fun b => helper f none b gi) (splitT 124 []) = none := by
    intro f gi
    cases f with
    | zero => rfl
    | succ f => rfl
  cases f with
  | zero => rfl
  | succ f =>
    simp only [helper]
    by_cases hq : ∃ tl0, tl = [63] :: [58] :: tl0
    · obtain ⟨tl0, rfl⟩ := hq
      have := hex tl0 (fun a b hab => by
        have := hopen ([63] :: [58] :: a) b (by simp [hab])
        simpa [depth, List.count_cons] using this)
      rw [classify_noncapture]
      rcases this with h | h <;> simp [h, hnone]
    · rw [classify_capture _ _ (fun tl0 e => hq ⟨tl0, e⟩)]
      rcases hex _ hopen with h | h <;> simp [h, hnone]

example : extractT 40 41 [[97], [40], [98], [41], [99], [41], [100]] = some ([[97], [40], [98], [41], [99]], [[100]]) := by
  decide
example : build (str "x(a(b)c") = none := by decide +kernel

/-! ## C05 -/

/-- **C05.** Joining the alternatives with the separator gives back the token sequence. -/
theorem C05_join (sep : Int) (ts : List (List Int)) : joinWith sep (splitT sep ts) = ts := by
  have := splitAux_join sep ts [] []
  simpa [splitT] using this

theorem bar_noBracket : NoBracket [124] := by
  intro o c h; cases h <;> decide

/-- **C05.** The alternatives of `p₁|p₂|…|pₙ` are `p₁, …, pₙ`, whenever no `pᵢ` has a `|` outside its brackets. -/
theorem C05_split_exact (ps : List (List (List Int))) (hne : ps ≠ []) (h : ∀ p ∈ ps, TopFree 124 p) :
    splitT 124 (joinWith 124 ps) = ps := by
  have := splitAux_pieces 124 bar_noBracket ps [] hne h
  simpa [splitT] using this

/-- **C05.** For a well-nested token sequence no alternative contains a `|` outside its brackets: every top-level `|` is
a cut point (and by `C05_join` every cut point is a `|`). -/
theorem C05_cuts_all (ts : List (List Int)) (h : WellNested ts) : ∀ p ∈ splitT 124 ts, TopFree 124 p := by
  obtain ⟨ps, h1, h2, h3⟩ := wellNested_pieces 124 h
  rw [← h3, C05_split_exact ps h1 h2]; exact h2

example : splitT 124 [[97], [124], [40], [98], [124], [99], [41], [124], [100]]
    = [[[97]], [[40], [98], [124], [99], [41]], [[100]]] := by decide

/-! ## C06 -/

/-- **C06.** What the balance check accepts: every opener is closed, in nested order; extra closers are ignored. -/
theorem C06_balanced_iff (ts : List (List Int)) : balancedV ts = true ↔ OpenersClosed ts := balancedV_iff ts

/-- **C06.** Well-nested sequences are accepted. -/
theorem C06_accepts (ts : List (List Int)) (h : WellNested ts) : balancedV ts = true := balancedV_wn h

def isOpener (t : List Int) : Bool := t == [40] || t == [91] || t == [123]
def isCloser (t : List Int) : Bool := t == [41] || t == [93] || t == [125]

theorem wellNested_counts {ts : List (List Int)} (h : WellNested ts) :
    ts.countP isOpener = ts.countP isCloser := by
  induction h with
  | nil => rfl
  | @tok t ts ht _ ih =>
    have h1 := ht _ _ .round
    have h2 := ht _ _ .square
    have h3 := ht _ _ .curly
    simp [List.countP_cons, isOpener, isCloser, h1, h2, h3, ih]
  | @pair o c a b hb _ _ ih1 ih2 =>
    simp only [List.countP_cons, List.countP_append, ih1, ih2]
    cases hb <;> simp [isOpener, isCloser] <;> omega

theorem openersClosed_counts {ts : List (List Int)} (h : OpenersClosed ts) :
    ts.countP isOpener ≤ ts.countP isCloser ∧ (ts.countP isOpener = ts.countP isCloser → WellNested ts) := by
  induction h with
  | nil => exact ⟨Nat.le_refl _, fun _ => .nil⟩
  | @skip t ts ht _ ih =>
    have h1 := ht _ _ .round
    have h2 := ht _ _ .square
    have h3 := ht _ _ .curly
    have ho : isOpener t = false := by simp [isOpener, h1, h2, h3]
    simp only [List.countP_cons, ho]
    by_cases hc : isCloser t = true
    · simp only [hc, if_true]
      refine ⟨by simp; omega, fun e => by simp at e; omega⟩
    · simp only [hc]
      refine ⟨by simpa using ih.1, fun e => .tok ?_ (ih.2 (by simpa using e))⟩
      intro o c hb
      cases hb <;> (simp [isCloser] at hc; simp [hc, h1, h2, h3])
  | @pair o c a b hb _ _ ih1 ih2 =>
    have hoc : isOpener o = true ∧ isCloser o = false ∧ isOpener c = false ∧ isCloser c = true := by
      cases hb <;> decide
    simp only [List.countP_cons, List.countP_append, hoc.1, hoc.2.1, hoc.2.2.1, hoc.2.2.2]
    refine ⟨by simp; omega, fun e => ?_⟩
    simp at e
    exact .pair hb (ih1.2 (by omega)) (ih2.2 (by omega))

/-- **C06.** A sequence is well nested exactly when the check accepts it and it has as many closers as openers. -/
theorem C06_wellNested_iff (ts : List (List Int)) :
    WellNested ts ↔ balancedV ts = true ∧ ts.countP isOpener = ts.countP isCloser :=
  ⟨fun h => ⟨balancedV_wn h, wellNested_counts h⟩, fun h => (openersClosed_counts ((balancedV_iff ts).1 h.1)).2 h.2⟩

/-- **C06, refuted in general.** A stray closer is accepted although the sequence is not well nested. -/
theorem C06_stray_closer_refuted : ∃ ts, balancedV ts = true ∧ ¬ WellNested ts := by
  refine ⟨[[97], [41]], by decide, ?_⟩
  intro h
  rw [C06_wellNested_iff] at h
  revert h; decide

example : WellNested [[40], [97], [91], [98], [93], [41]] := by
  have : ([[40], [97], [91], [98], [93], [41]] : List (List Int)) = [40] :: ([[97], [91], [98], [93]] ++ [41] :: []) := rfl
  rw [this]
  refine .pair .round (.tok ?_ ?_) .nil
  · intro o c h; cases h <;> decide
  · exact WellNested.pair (a := [[98]]) .square (.tok (by intro o c h; cases h <;> decide) .nil) .nil

end ERegex.Props

import Verif.Props.Front
import Verif.Model.Result
import Verif.Spec.Syntax
/-!
# C03 (in patterns), C07, C08 : numbers and escapes as they are compiled
-/
set_option autoImplicit false
namespace ERegex.Props
open ERegex ERegex.Spec

theorem bar_not_alnum : ¬ Alnum 124 := by unfold Alnum; omega

theorem digit_alnum {c : Int} (h : IsDigit c) : Alnum c := Or.inl h

theorem digits_no (x : Int) (hx : ¬ IsDigit x) {a : List Int} (h : ∀ c ∈ a, IsDigit c) : x ∉ a :=
  fun m => hx (h x m)

theorem digits_ne_bar {a : List Int} (h : ∀ c ∈ a, IsDigit c) : ([124] : List Int) ≠ a := by
  intro e
  have := h 124 (by rw [← e]; simp)
  unfold IsDigit at this; omega

theorem alnum_ne {c : Int} (h : Alnum c) : c ≠ 92 ∧ c ≠ 123 ∧ c ≠ 124 := by
  unfold Alnum at h; omega

theorem isDigit_not (x : Int) (h : x < 48 ∨ 57 < x) : ¬ IsDigit x := by unfold IsDigit; omega

/-- A digit token is no brace and no comma. -/
theorem digits_tok {a : List Int} (h : ∀ c ∈ a, IsDigit c) (x : Int) (hx : x < 48 ∨ 57 < x) : a ≠ [x] := by
  intro e
  have := h x (by rw [e]; simp)
  unfold IsDigit at this; omega

/-! ## C03 in a pattern -/

/-- Bound read from a digit string. -/
def bound (a : List Int) : Nat := (decimal a % 4294967296).toNat

theorem pack_bound {a : List Int} (hne : a ≠ []) : packStringToNumber a = some (bound a) := by
  have := C03_bound_value a _ (by unfold packStringToNumber; rw [if_neg hne])
  unfold packStringToNumber
  rw [if_neg hne]
  unfold bound
  rw [← this]; simp

theorem extract_brace1 {a : List Int} (h : ∀ c ∈ a, IsDigit c) : extractT 123 125 [a, [125]] = some ([a], []) := by
  have h1 := digits_tok h 123 (by omega)
  have h2 := digits_tok h 125 (by omega)
  simp [extractT, extractAux, h1, h2]

theorem extract_brace2 {a : List Int} (h : ∀ c ∈ a, IsDigit c) :
    extractT 123 125 [a, [44], [125]] = some ([a, [44]], []) := by
  have h1 := digits_tok h 123 (by omega)
  have h2 := digits_tok h 125 (by omega)
  simp [extractT, extractAux, h1, h2]

theorem extract_brace3 {a b : List Int} (h : ∀ c ∈ a, IsDigit c) (h' : ∀ c ∈ b, IsDigit c) :
    extractT 123 125 [a, [44], b, [125]] = some ([a, [44], b], []) := by
  have h1 := digits_tok h 123 (by omega)
  have h2 := digits_tok h 125 (by omega)
  have h3 := digits_tok h' 123 (by omega)
  have h4 := digits_tok h' 125 (by omega)
  simp [extractT, extractAux, h1, h2, h3, h4]

/-- The tree of the single character pattern `c`. -/
def charTree (c : Int) : Node := .simple (.exact [c] [c]) []

/-- **C03.** The pattern `c{n}` is compiled to exactly `decimal n (mod 2^32)` repetitions of `c`. -/
theorem C03_exact_bound (c : Int) (a : List Int) (hc : Alnum c) (ha : ∀ d ∈ a, IsDigit d) (hne : a ≠ []) :
    build (c :: 123 :: (a ++ [125])) = some (.alt [.repeated (charTree c) (bound a) []]) := by
  have hc' := alnum_ne hc
  have ht : Tokens (c :: 123 :: (a ++ [125])) [[c], [123], a, [125]] :=
    .plain hc'.1 hc'.2.1 (.brace1 (digits_no _ (isDigit_not _ (by omega)) ha) (digits_no _ (isDigit_not _ (by omega)) ha) .nil)
  have hs : ([124] : List Int) ∉ [[c], [123], a, [125]] := by
    simp [hc'.2.2.symm, digits_ne_bar ha]
  rw [build_single ht hs]
  rw [List.length_cons, helper_alnum hc, List.length_cons, helper_brace (extract_brace1 ha)]
  simp [helper_nil, policyOf, quantifiedNode, pack_bound hne, charTree, addChild]

/-- **C03.** The pattern `c{n,}` is compiled to at least `decimal n (mod 2^32)` repetitions (upper bound `2^32-1`). -/
theorem C03_min_bound (c : Int) (a : List Int) (hc : Alnum c) (ha : ∀ d ∈ a, IsDigit d) (hne : a ≠ []) :
    build (c :: 123 :: (a ++ [44, 125])) = some (.alt [.greedy (charTree c) (bound a) 4294967295 []]) := by
  have hc' := alnum_ne hc
  have ht : Tokens (c :: 123 :: (a ++ [44, 125])) [[c], [123], a, [44], [125]] :=
    .plain hc'.1 hc'.2.1 (.brace2 (digits_no _ (isDigit_not _ (by omega)) ha) (digits_no _ (isDigit_not _ (by omega)) ha) .nil)
  have hs : ([124] : List Int) ∉ [[c], [123], a, [44], [125]] := by
    simp [hc'.2.2.symm, digits_ne_bar ha]
  rw [build_single ht hs]
  rw [List.length_cons, helper_alnum hc, List.length_cons, helper_brace (extract_brace2 ha)]
  simp [helper_nil, policyOf, quantifiedNode, pack_bound hne, charTree, addChild,
    Policy.node, umax]

/-- **C03.** The pattern `c{n,m}` is compiled to between `decimal n` and `decimal m` (mod `2^32`) repetitions. -/
theorem C03_range_bound (c : Int) (a b : List Int) (hc : Alnum c) (ha : ∀ d ∈ a, IsDigit d) (hne : a ≠ [])
    (hb : ∀ d ∈ b, IsDigit d) (hne' : b ≠ []) :
    build (c :: 123 :: (a ++ 44 :: (b ++ [125]))) = some (.alt [.greedy (charTree c) (bound a) (bound b) []]) := by
  have hc' := alnum_ne hc
  have ht : Tokens (c :: 123 :: (a ++ 44 :: (b ++ [125]))) [[c], [123], a, [44], b, [125]] :=
    .plain hc'.1 hc'.2.1 (.brace3 (digits_no _ (isDigit_not _ (by omega)) ha) (digits_no _ (isDigit_not _ (by omega)) ha) hne'
      (digits_no _ (isDigit_not _ (by omega)) hb) .nil)
  have hs : ([124] : List Int) ∉ [[c], [123], a, [44], b, [125]] := by
    simp [hc'.2.2.symm, digits_ne_bar ha, digits_ne_bar hb]
  rw [build_single ht hs]
  rw [List.length_cons, helper_alnum hc, List.length_cons, helper_brace (extract_brace3 ha hb)]
  simp [helper_nil, policyOf, quantifiedNode, pack_bound hne, pack_bound hne',
    charTree, addChild, Policy.node]

example : Alnum 97 ∧ (∀ d ∈ str "12", IsDigit d) ∧ bound (str "12") = 12 := by
  refine ⟨by unfold Alnum; omega, ?_, by decide⟩
  intro d hd
  have : d = 49 ∨ d = 50 := by simpa [str] using hd
  unfold IsDigit; rcases this with h | h <;> rw [h] <;> omega

/-! ## C07 -/

theorem digit_hex {c : Int} (h : IsDigit c) : isHex c = true := by
  unfold IsDigit at h; unfold isHex
  have : (48 : Int) ≤ c ∧ c ≤ 70 := by omega
  simp [this.1, this.2]

theorem hexPair_digits {a b : Int} (ha : IsDigit a) (hb : IsDigit b) :
    hexPair a b = byte (16 * (a - 48) + (b - 48)) := by
  unfold IsDigit at ha hb
  unfold hexPair
  rw [nat_or_shift 4 _ _ (by omega)]
  congr 1
  omega

/-- **C07 (decimal nibbles).** `\xNM` with decimal digits `N`, `M` is the regex that matches the byte `16·N + M`. -/
theorem C07_hex_two_digits_partial (a b : Int) (ha : IsDigit a) (hb : IsDigit b) :
    compile [92, 120, a, b] =
      some (.exact [byte (16 * (a - 48) + (b - 48))] [byte (16 * (a - 48) + (b - 48))]) := by
  have hda := alnum_ne (digit_alnum ha)
  have hdb := alnum_ne (digit_alnum hb)
  have ht : Tokens [92, 120, a, b] [[92, 120], [a], [b]] := .escaped (.plain hda.1 hda.2.1 (.plain hdb.1 hdb.2.1 .nil))
  have hs : ([124] : List Int) ∉ [[92, 120], [a], [b]] := by simp [hda.2.2.symm, hdb.2.2.symm]
  unfold compile
  rw [build_single ht hs]
  have hcl : classify true [[92, 120], [a], [b]]
      = .node (.simple (.exact [hexPair a b] [hexPair a b]) []) false [] := by
    rw [classify_escape _ _ _ (by simp [hda.2.1])]
    simp [classify.octalHead, classify.hexHead, isOctal, digit_hex ha, digit_hex hb]
  simp [helper, hcl, addChild, classify_nil, hexPair_digits ha hb, compile_exact]

/-- **C07 (decimal nibble).** `\xN` (at the end of the pattern) is the regex that matches the byte `N`. -/
theorem C07_hex_one_digit_partial (a : Int) (ha : IsDigit a) :
    compile [92, 120, a] = some (.exact [a - 48] [a - 48]) := by
  have hda := alnum_ne (digit_alnum ha)
  have ht : Tokens [92, 120, a] [[92, 120], [a]] := .escaped (.plain hda.1 hda.2.1 .nil)
  have hs : ([124] : List Int) ∉ [[92, 120], [a]] := by simp [hda.2.2.symm]
  unfold compile
  rw [build_single ht hs]
  have hcl : classify true [[92, 120], [a]]
      = .node (.simple (.exact [a - 48] [a - 48]) []) false [] := by
    have : toChar (a - 48) = a - 48 := by unfold IsDigit at ha; exact toChar_small (by omega) (by omega)
    rw [classify_escape _ _ _ (by simp [hda.2.1])]
    simp [classify.octalHead, classify.hexHead, digit_hex ha, this]
  simp [helper, hcl, addChild, classify_nil, compile_exact]

/-- The bytes spelled by a list of decimal digit pairs. -/
def hexBytes : List (Int × Int) → List Int
  | [] => []
  | (a, b) :: ds => byte (16 * (a - 48) + (b - 48)) :: hexBytes ds

/-- The digits themselves. -/
def hexDigits : List (Int × Int) → List Int
  | [] => []
  | (a, b) :: ds => a :: b :: hexDigits ds

theorem hexToBin_digits : ∀ ds : List (Int × Int), (∀ d ∈ ds, IsDigit d.1 ∧ IsDigit d.2) →
    hexToBin (hexDigits ds) = some (hexBytes ds) := by
  intro ds
  induction ds with
  | nil => intro _; rfl
  | cons d ds ih =>
    intro h
    obtain ⟨a, b⟩ := d
    have hd := h (a, b) (by simp)
    have ih' := ih (fun x hx => h x (by simp [hx]))
    simp only [hexDigits, hexBytes]
    cases ds with
    | nil => simp [hexDigits, hexToBin, digit_hex hd.1, digit_hex hd.2, hexPair_digits hd.1 hd.2, hexBytes]
    | cons d' ds =>
      obtain ⟨a', b'⟩ := d'
      simp only [hexDigits] at ih' ⊢
      rw [hexToBin]
      · simp [digit_hex hd.1, digit_hex hd.2, hexPair_digits hd.1 hd.2, ih']
      · simp

theorem hexDigits_digits {ds : List (Int × Int)} (h : ∀ d ∈ ds, IsDigit d.1 ∧ IsDigit d.2) :
    ∀ c ∈ hexDigits ds, IsDigit c := by
  induction ds with
  | nil => simp [hexDigits]
  | cons d ds ih =>
    intro c hc
    simp only [hexDigits, List.mem_cons] at hc
    have hd := h d (by simp)
    rcases hc with rfl | rfl | hc
    · exact hd.1
    · exact hd.2
    · exact ih (fun x hx => h x (by simp [hx])) c hc

/-- **C07 (decimal nibbles).** `\x{…}` with any number of decimal digit pairs is the regex that matches exactly the
spelled byte string. -/
theorem C07_hex_string_partial (ds : List (Int × Int)) (hne : ds ≠ []) (h : ∀ d ∈ ds, IsDigit d.1 ∧ IsDigit d.2) :
    compile (92 :: 120 :: 123 :: (hexDigits ds ++ [125])) = some (.exact (hexBytes ds) (hexBytes ds)) := by
  have hd := hexDigits_digits h
  have ht : Tokens (92 :: 120 :: 123 :: (hexDigits ds ++ [125])) [[92, 120], [123], hexDigits ds, [125]] :=
    .escaped (.brace1 (digits_no _ (isDigit_not _ (by omega)) hd) (digits_no _ (isDigit_not _ (by omega)) hd) .nil)
  have hs : ([124] : List Int) ∉ [[92, 120], [123], hexDigits ds, [125]] := by simp [digits_ne_bar hd]
  unfold compile
  rw [build_single ht hs]
  have hb : hexBytes ds ≠ [] := by
    cases ds with
    | nil => exact absurd rfl hne
    | cons d ds => simp [hexBytes]
  have hcl : classify true [[92, 120], [123], hexDigits ds, [125]]
      = .node (.simple (.exact (hexBytes ds) (hexBytes ds)) []) false [] := by
    simp [classify_hexbrace, extract_brace1 hd, hexToBin_digits ds h, exactNode, hb]
  simp [helper, hcl, addChild, classify_nil, compile_exact]

/-- Value of a hexadecimal digit. -/
def hexVal (c : Int) : Option Int :=
  if 48 ≤ c ∧ c ≤ 57 then some (c - 48)
  else if 65 ≤ c ∧ c ≤ 70 then some (c - 55)
  else if 97 ≤ c ∧ c ≤ 102 then some (c - 87)
  else none

/-- **C07, refuted for letters.** It is not true that `\xNM` matches the byte spelled by any two hexadecimal digits:
`\x4A` (the letter `J`, 74) is compiled to the byte 81 (`Q`), and lowercase digits are not recognised at all
(`\x4a` is the byte 4 followed by the letter `a`). -/
theorem C07_letters_refuted :
    ¬ (∀ a b x y, hexVal a = some x → hexVal b = some y →
        compile [92, 120, a, b] = some (.exact [byte (16 * x + y)] [byte (16 * x + y)])) := by
  intro h
  have := h 52 65 4 10 (by decide) (by decide)
  revert this; decide +kernel

theorem C07_letter_witness : compile (str "\\x4A") = some (.exact [81] [81]) := by decide +kernel

theorem hexVal_mem {a x : Int} (h : hexVal a = some x) : a ∈ str "0123456789ABCDEFabcdef" := by
  unfold hexVal at h
  have : a = 48 ∨ a = 49 ∨ a = 50 ∨ a = 51 ∨ a = 52 ∨ a = 53 ∨ a = 54 ∨ a = 55 ∨ a = 56 ∨ a = 57 ∨ a = 65 ∨ a = 66 ∨ a = 67 ∨ a = 68 ∨ a = 69 ∨ a = 70 ∨
      a = 97 ∨ a = 98 ∨ a = 99 ∨ a = 100 ∨ a = 101 ∨ a = 102 := by
    grind
  rcases this with rfl | rfl | rfl | rfl | rfl | rfl | rfl | rfl | rfl | rfl | rfl | rfl | rfl | rfl | rfl | rfl | rfl | rfl | rfl | rfl | rfl | rfl <;> decide

/-- **C07, exactly.** `\xNM` with hexadecimal digits is compiled to the byte it spells if and only if both are decimal digits. -/
theorem C07_exact (a b x y : Int) (ha : hexVal a = some x) (hb : hexVal b = some y) :
    compile [92, 120, a, b] = some (.exact [byte (16 * x + y)] [byte (16 * x + y)]) ↔ IsDigit a ∧ IsDigit b := by
  have h : ∀ a ∈ str "0123456789ABCDEFabcdef", ∀ b ∈ str "0123456789ABCDEFabcdef",
      (match hexVal a, hexVal b with
        | some x, some y => decide (compile [92, 120, a, b] = some (.exact [byte (16 * x + y)] [byte (16 * x + y)]))
        | _, _ => false) = (decide (48 ≤ a ∧ a ≤ 57) && decide (48 ≤ b ∧ b ≤ 57)) := by decide +kernel
  have := h a (hexVal_mem ha) b (hexVal_mem hb)
  rw [ha, hb] at this
  simp only at this
  rw [Bool.eq_iff_iff] at this
  simpa [IsDigit] using this

/-- **C07, refuted.** In `\x{…}` with an odd number of digits the last one is dropped: `\x{414}` is `A`. -/
theorem C07_odd_refuted : compile (str "\\x{414}") = some (.exact [65] [65]) := by decide +kernel

example : compile (str "\\x{414243}") = some (.exact (str "ABC") (str "ABC")) ∧
    IsDigit 52 ∧ compile (str "\\x41") = some (.exact (str "A") (str "A")) := by
  refine ⟨by decide +kernel, by unfold IsDigit; omega, by decide +kernel⟩

/-! ## C08 -/

/-- An octal digit. -/
def IsOctal (c : Int) : Prop := 48 ≤ c ∧ c ≤ 55

theorem octal_ok {c : Int} (h : IsOctal c) : isOctal c = true := by
  unfold IsOctal at h; unfold isOctal
  have : (48 : Int) ≤ c ∧ c ≤ 56 := by omega
  simp [this.1, this.2]

theorem octal_digit {c : Int} (h : IsOctal c) : IsDigit c := by unfold IsOctal at h; unfold IsDigit; omega

theorem octTriple_value {a b c : Int} (ha : IsOctal a) (hb : IsOctal b) (hc : IsOctal c) :
    octTriple a b c = byte (64 * (a - 48) + 8 * (b - 48) + (c - 48)) := by
  unfold IsOctal at ha hb hc
  unfold octTriple
  have h1 : ((a - 48).toNat <<< 6) ||| ((b - 48).toNat <<< 3) = 2 ^ 6 * (a - 48).toNat + (b - 48).toNat * 8 := by
    rw [Nat.shiftLeft_eq (b - 48).toNat 3, nat_or_shift 6 _ _ (by omega)]
  have h2 : 2 ^ 6 * (a - 48).toNat + (b - 48).toNat * 8 = (8 * (a - 48).toNat + (b - 48).toNat) <<< 3 := by
    rw [Nat.shiftLeft_eq]; omega
  rw [h1, h2, nat_or_shift 3 _ _ (by omega)]
  congr 1
  omega

/-- **C08.** `\NNN` with octal digits is the regex that matches exactly the spelled byte. -/
theorem C08_octal (a b c : Int) (ha : IsOctal a) (hb : IsOctal b) (hc : IsOctal c) :
    compile [92, a, b, c] =
      some (.exact [byte (64 * (a - 48) + 8 * (b - 48) + (c - 48))]
        [byte (64 * (a - 48) + 8 * (b - 48) + (c - 48))]) := by
  have hdb := alnum_ne (digit_alnum (octal_digit hb))
  have hdc := alnum_ne (digit_alnum (octal_digit hc))
  have ht : Tokens [92, a, b, c] [[92, a], [b], [c]] := .escaped (.plain hdb.1 hdb.2.1 (.plain hdc.1 hdc.2.1 .nil))
  have hs : ([124] : List Int) ∉ [[92, a], [b], [c]] := by simp [hdb.2.2.symm, hdc.2.2.symm]
  unfold compile
  rw [build_single ht hs]
  have ha1 : a ≠ 120 := by unfold IsOctal at ha; omega
  have ha2 : a ≠ 111 := by unfold IsOctal at ha; omega
  have hcl : classify true [[92, a], [b], [c]]
      = .node (.simple (.exact [octTriple a b c] [octTriple a b c]) []) false [] := by
    rw [classify_escape _ _ _ (by simp [hdb.2.1])]
    simp [classify.octalHead, octal_ok ha, octal_ok hb, octal_ok hc]
  simp [helper, hcl, addChild, classify_nil, octTriple_value ha hb hc, compile_exact]

/-- **C08.** Only three octal digits are an octal escape: `\abc`, where `a` and `b` are digits and `c` is a letter, is read as the three
characters `a`, `b`, `c`. -/
theorem C08_needs_three (a b c : Int) (ha : IsDigit a) (hb : IsDigit b) (hc : 65 ≤ c ∧ c ≤ 90 ∨ 97 ≤ c ∧ c ≤ 122) :
    build [92, a, b, c] = some (.alt [.simple (.exact [a] [92, a]) [.simple (.exact [b] [b]) [.simple (.exact [c] [c]) []]]]) := by
  have hdb := alnum_ne (digit_alnum hb)
  have ht : Tokens [92, a, b, c] [[92, a], [b], [c]] := .escaped (.plain hdb.1 hdb.2.1 (.plain (by omega) (by omega) .nil))
  have hs : ([124] : List Int) ∉ [[92, a], [b], [c]] := by simp [hdb.2.2.symm]; omega
  rw [build_single ht hs]
  unfold IsDigit at ha hb
  have h1 : isOctal c = false := by unfold isOctal; simp; omega
  have hcl : classify true [[92, a], [b], [c]] = .node (.simple (.exact [a] [92, a]) []) false [[b], [c]] := by
    rw [classify_escape _ _ _ (by simp [hdb.2.1])]
    have : terminalOf [92, a] = some (.exact [a] [92, a]) := by
      unfold terminalOf
      split <;> simp_all <;> omega
    have h120 : a ≠ 120 := by omega
    simp [classify.octalHead, classify.hexHead, h1, this, h120]
  have hb2 : ∀ x tl, classify x ([b] :: tl) = .node (.simple (.exact [b] [b]) []) false tl := fun x tl => classify_alnum x b (by unfold Alnum; omega) tl
  have hc2 : ∀ x tl, classify x ([c] :: tl) = .node (.simple (.exact [c] [c]) []) false tl := fun x tl => classify_alnum x c (by unfold Alnum; omega) tl
  simp [helper, hcl, hb2, hc2, addChild, classify_nil]

/-- The bytes spelled by a list of octal digit triples. -/
def octBytes : List (Int × Int × Int) → List Int
  | [] => []
  | (a, b, c) :: ds => byte (64 * (a - 48) + 8 * (b - 48) + (c - 48)) :: octBytes ds

/-- The digits themselves. -/
def octDigits : List (Int × Int × Int) → List Int
  | [] => []
  | (a, b, c) :: ds => a :: b :: c :: octDigits ds

theorem octalToBin_digits : ∀ ds : List (Int × Int × Int),
    (∀ d ∈ ds, IsOctal d.1 ∧ IsOctal d.2.1 ∧ IsOctal d.2.2) → octalToBin (octDigits ds) = some (octBytes ds) := by
  intro ds
  induction ds with
  | nil => intro _; rfl
  | cons d ds ih =>
    intro h
    obtain ⟨a, b, c⟩ := d
    have hd := h (a, b, c) (by simp)
    have ih' := ih (fun x hx => h x (by simp [hx]))
    simp only [octDigits, octBytes, octalToBin]
    simp [octal_ok hd.1, octal_ok hd.2.1, octal_ok hd.2.2, ih', octTriple_value hd.1 hd.2.1 hd.2.2]

theorem octDigits_digits {ds : List (Int × Int × Int)} (h : ∀ d ∈ ds, IsOctal d.1 ∧ IsOctal d.2.1 ∧ IsOctal d.2.2) :
    ∀ c ∈ octDigits ds, IsDigit c := by
  induction ds with
  | nil => simp [octDigits]
  | cons d ds ih =>
    intro c hc
    simp only [octDigits, List.mem_cons] at hc
    have hd := h d (by simp)
    rcases hc with rfl | rfl | rfl | hc
    · exact octal_digit hd.1
    · exact octal_digit hd.2.1
    · exact octal_digit hd.2.2
    · exact ih (fun x hx => h x (by simp [hx])) c hc

/-- **C08.** `\o{…}` with any number of octal triples is the regex that matches exactly the spelled byte string. -/
theorem C08_octal_string (ds : List (Int × Int × Int)) (hne : ds ≠ [])
    (h : ∀ d ∈ ds, IsOctal d.1 ∧ IsOctal d.2.1 ∧ IsOctal d.2.2) :
    compile (92 :: 111 :: 123 :: (octDigits ds ++ [125])) = some (.exact (octBytes ds) (octBytes ds)) := by
  have hd := octDigits_digits h
  have ht : Tokens (92 :: 111 :: 123 :: (octDigits ds ++ [125])) [[92, 111], [123], octDigits ds, [125]] :=
    .escaped (.brace1 (digits_no _ (isDigit_not _ (by omega)) hd) (digits_no _ (isDigit_not _ (by omega)) hd) .nil)
  have hs : ([124] : List Int) ∉ [[92, 111], [123], octDigits ds, [125]] := by simp [digits_ne_bar hd]
  unfold compile
  rw [build_single ht hs]
  have hb : octBytes ds ≠ [] := by
    cases ds with
    | nil => exact absurd rfl hne
    | cons d ds => simp [octBytes]
  have hcl : classify true [[92, 111], [123], octDigits ds, [125]]
      = .node (.simple (.exact (octBytes ds) (octBytes ds)) []) false [] := by
    simp [classify_octbrace, extract_brace1 hd, octalToBin_digits ds h, exactNode, hb]
  simp [helper, hcl, addChild, classify_nil, compile_exact]

/-- **C08, refuted beyond octal digits.** The digit `8` is accepted: `\108` is compiled (to 72, the byte `H` of `\110`),
although it spells no octal number. -/
theorem C08_eight_refuted : compile (str "\\108") = some (.exact [72] [72]) ∧ ¬ IsOctal 56 := by
  refine ⟨by decide +kernel, by unfold IsOctal; omega⟩

theorem digit_mem {c : Int} (h : IsDigit c) : c ∈ str "0123456789" := by
  unfold IsDigit at h
  have : c = 48 ∨ c = 49 ∨ c = 50 ∨ c = 51 ∨ c = 52 ∨ c = 53 ∨ c = 54 ∨ c = 55 ∨ c = 56 ∨ c = 57 := by omega
  rcases this with rfl | rfl | rfl | rfl | rfl | rfl | rfl | rfl | rfl | rfl <;> decide

/-- The tree is one byte. -/
def oneByte : Option Node → Bool
  | some (.exact [_] _) => true
  | _ => false

/-- **C08, exactly.** `\abc` with decimal digits is compiled to one byte if and only if none of them is a `9`. -/
theorem C08_exact (a b c : Int) (ha : IsDigit a) (hb : IsDigit b) (hc : IsDigit c) :
    oneByte (compile [92, a, b, c]) = true ↔ a ≠ 57 ∧ b ≠ 57 ∧ c ≠ 57 := by
  have h : ∀ a ∈ str "0123456789", ∀ b ∈ str "0123456789", ∀ c ∈ str "0123456789",
      oneByte (compile [92, a, b, c]) = (decide (a ≠ 57) && decide (b ≠ 57) && decide (c ≠ 57)) := by decide +kernel
  rw [h a (digit_mem ha) b (digit_mem hb) c (digit_mem hc)]
  simp [and_assoc]

/-- **C08, exactly.** … and to the byte it spells (if the digit `8` counts as eight) if and only if none is a `9` and an `8` stands only behind an even digit
(`0`, `2`, `4`, `6`, `8`) or first, where what it spells is taken modulo 256. -/
theorem C08_value (a b c : Int) (ha : IsDigit a) (hb : IsDigit b) (hc : IsDigit c) :
    compile [92, a, b, c] = some (.exact [byte (64 * (a - 48) + 8 * (b - 48) + (c - 48))] [byte (64 * (a - 48) + 8 * (b - 48) + (c - 48))]) ↔
      (a ≠ 57 ∧ b ≠ 57 ∧ c ≠ 57 ∧ (b = 56 → a % 2 = 0) ∧ (c = 56 → b % 2 = 0)) := by
  have h : ∀ a ∈ str "0123456789", ∀ b ∈ str "0123456789", ∀ c ∈ str "0123456789",
      decide (compile [92, a, b, c] = some (.exact [byte (64 * (a - 48) + 8 * (b - 48) + (c - 48))] [byte (64 * (a - 48) + 8 * (b - 48) + (c - 48))])) =
        decide (a ≠ 57 ∧ b ≠ 57 ∧ c ≠ 57 ∧ (b = 56 → a % 2 = 0) ∧ (c = 56 → b % 2 = 0)) := by decide +kernel
  have := h a (digit_mem ha) b (digit_mem hb) c (digit_mem hc)
  rwa [decide_eq_decide] at this

example : IsDigit 49 ∧ IsDigit 57 ∧ (build (str "\\19z")).isSome := by refine ⟨by unfold IsDigit; omega, by unfold IsDigit; omega, by decide +kernel⟩
example : compile (str "\\o{101102}") = some (.exact (str "AB") (str "AB")) ∧ IsOctal 49 ∧
    compile (str "\\377") = some (.exact [-1] [-1]) := by
  refine ⟨by decide +kernel, by unfold IsOctal; omega, by decide +kernel⟩

/-! ## C07 and C08: the brace form, exactly -/

/-- What the content of `\x{…}` and `\o{…}` is made of here. -/
def Plainly (w : List Int) : Prop := ∀ c ∈ w, c ≠ 44 ∧ c ≠ 123 ∧ c ≠ 124 ∧ c ≠ 125

theorem plainly_extract {w : List Int} (h : Plainly w) : extractT 123 125 [w, [125]] = some ([w], []) := by
  have h1 : w ≠ [123] := by rintro rfl; exact (h 123 (by simp)).2.1 rfl
  have h2 : w ≠ [125] := by rintro rfl; exact (h 125 (by simp)).2.2.2 rfl
  simp [extractT, extractAux, h1, h2]

theorem plainly_tokens {w : List Int} (h : Plainly w) (e : Int) :
    Tokens (92 :: e :: 123 :: (w ++ [125])) [[92, e], [123], w, [125]] :=
  .escaped (.brace1 (fun hm => (h _ hm).2.2.2 rfl) (fun hm => (h _ hm).1 rfl) .nil)

theorem plainly_bar {w : List Int} (h : Plainly w) (e : Int) : ([124] : List Int) ∉ [[92, e], [123], w, [125]] := by
  have h1 : ([124] : List Int) ≠ w := by rintro rfl; exact (h 124 (by simp)).2.2.1 rfl
  simp [h1]

theorem hex_brace {w : List Int} (h : Plainly w) :
    compile (92 :: 120 :: 123 :: (w ++ [125])) = (hexToBin w).bind (fun v => if v = [] then none else some (.exact v v)) := by
  unfold compile
  rw [build_single (plainly_tokens h 120) (plainly_bar h 120)]
  cases hv : hexToBin w with
  | none => simp [helper, classify_hexbrace, plainly_extract h, hv]
  | some v =>
    by_cases hn : v = []
    · simp [helper, classify_hexbrace, plainly_extract h, hv, exactNode, hn]
    · simp [helper, classify_hexbrace, plainly_extract h, hv, exactNode, hn, addChild, classify_nil, compile_exact]

theorem oct_brace {w : List Int} (h : Plainly w) :
    compile (92 :: 111 :: 123 :: (w ++ [125])) = (octalToBin w).bind (fun v => if v = [] then none else some (.exact v v)) := by
  unfold compile
  rw [build_single (plainly_tokens h 111) (plainly_bar h 111)]
  cases hv : octalToBin w with
  | none => simp [helper, classify_octbrace, plainly_extract h, hv]
  | some v =>
    by_cases hn : v = []
    · simp [helper, classify_octbrace, plainly_extract h, hv, exactNode, hn]
    · simp [helper, classify_octbrace, plainly_extract h, hv, exactNode, hn, addChild, classify_nil, compile_exact]

/-- A hexadecimal digit. -/
def HexDigit (c : Int) : Prop := hexVal c ≠ none

/-- The bytes spelled by pairs of hexadecimal digits. -/
def spelledBytes : List (Int × Int) → List Int
  | [] => []
  | (a, b) :: ds => byte (16 * (hexVal a).getD 0 + (hexVal b).getD 0) :: spelledBytes ds

theorem hexDigit_mem {a : Int} (h : HexDigit a) : a ∈ str "0123456789ABCDEFabcdef" := by
  unfold HexDigit at h
  cases e : hexVal a with
  | none => exact absurd e h
  | some x => exact hexVal_mem e

theorem pair_exact {a b : Int} (ha : HexDigit a) (hb : HexDigit b) :
    ((isHex a && isHex b) = true ∧ hexPair a b = byte (16 * (hexVal a).getD 0 + (hexVal b).getD 0)) ↔ IsDigit a ∧ IsDigit b := by
  have h : ∀ a ∈ str "0123456789ABCDEFabcdef", ∀ b ∈ str "0123456789ABCDEFabcdef",
      decide ((isHex a && isHex b) = true ∧ hexPair a b = byte (16 * (hexVal a).getD 0 + (hexVal b).getD 0)) =
        decide ((48 ≤ a ∧ a ≤ 57) ∧ (48 ≤ b ∧ b ≤ 57)) := by decide +kernel
  have := h a (hexDigit_mem ha) b (hexDigit_mem hb)
  rwa [decide_eq_decide] at this

theorem hexToBin_step (a b : Int) (ds : List (Int × Int)) : hexToBin (hexDigits ((a, b) :: ds)) =
    if isHex a && isHex b then (hexToBin (hexDigits ds)).map (fun r => hexPair a b :: r) else none := by
  cases ds with
  | nil => simp [hexDigits, hexToBin]
  | cons d ds =>
    obtain ⟨x, y⟩ := d
    simp only [hexDigits]
    rw [hexToBin]
    simp

theorem hexToBin_exact : ∀ (ds : List (Int × Int)), (∀ d ∈ ds, HexDigit d.1 ∧ HexDigit d.2) →
    (hexToBin (hexDigits ds) = some (spelledBytes ds) ↔ ∀ d ∈ ds, IsDigit d.1 ∧ IsDigit d.2)
  | [], _ => by simp [hexDigits, hexToBin, spelledBytes]
  | (a, b) :: ds, h => by
    have hd := h (a, b) (by simp)
    have ih := hexToBin_exact ds (fun d hm => h d (by simp [hm]))
    have hp := pair_exact hd.1 hd.2
    rw [hexToBin_step]
    by_cases hx : (isHex a && isHex b) = true
    · rw [if_pos hx]
      cases e : hexToBin (hexDigits ds) with
      | none =>
        rw [e] at ih
        simp only [Option.map_none, reduceCtorEq, false_iff] at ih ⊢
        exact fun hall => ih (fun d hm => hall d (by simp [hm]))
      | some v =>
        rw [e] at ih
        simp only [Option.map_some, Option.some.injEq, spelledBytes, List.cons.injEq, List.forall_mem_cons] at ih ⊢
        rw [ih]
        constructor
        · rintro ⟨h1, h2⟩; exact ⟨hp.1 ⟨hx, h1⟩, h2⟩
        · rintro ⟨h1, h2⟩; exact ⟨(hp.2 h1).2, h2⟩
    · rw [if_neg hx]
      simp only [reduceCtorEq, false_iff]
      intro hall
      exact hx (hp.2 (hall (a, b) (by simp))).1

theorem hexDigits_plain {ds : List (Int × Int)} (h : ∀ d ∈ ds, HexDigit d.1 ∧ HexDigit d.2) : Plainly (hexDigits ds) := by
  have hone : ∀ a, HexDigit a → a ≠ 44 ∧ a ≠ 123 ∧ a ≠ 124 ∧ a ≠ 125 := by
    intro a ha
    refine ⟨?_, ?_, ?_, ?_⟩ <;> (rintro rfl; exact ha (by decide))
  induction ds with
  | nil => intro c hc; simp [hexDigits] at hc
  | cons d ds ih =>
    intro c hc
    obtain ⟨a, b⟩ := d
    simp only [hexDigits, List.mem_cons] at hc
    have hd := h (a, b) (by simp)
    rcases hc with rfl | rfl | hc
    · exact hone _ hd.1
    · exact hone _ hd.2
    · exact ih (fun d hm => h d (by simp [hm])) c hc

/-- **C07, exactly, the brace form.** `\x{…}` with any number of pairs of hexadecimal digits is compiled to the byte string it spells if and only if there is
a pair and all the digits are decimal. -/
theorem C07_string_exact (ds : List (Int × Int)) (h : ∀ d ∈ ds, HexDigit d.1 ∧ HexDigit d.2) :
    compile (92 :: 120 :: 123 :: (hexDigits ds ++ [125])) = some (.exact (spelledBytes ds) (spelledBytes ds)) ↔
      ds ≠ [] ∧ ∀ d ∈ ds, IsDigit d.1 ∧ IsDigit d.2 := by
  rw [hex_brace (hexDigits_plain h), ← hexToBin_exact ds h]
  cases e : hexToBin (hexDigits ds) with
  | none => simp
  | some v =>
    by_cases hn : v = []
    · subst hn
      simp only [Option.bind_some, ↓reduceIte, reduceCtorEq, Option.some.injEq, false_iff, not_and]
      intro hne h2
      cases ds with
      | nil => exact hne rfl
      | cons d ds => obtain ⟨a, b⟩ := d; simp [spelledBytes] at h2
    · simp only [Option.bind_some, hn, ↓reduceIte, Option.some.injEq, Node.exact.injEq, and_self]
      constructor
      · rintro rfl; exact ⟨by rintro rfl; exact hn rfl, rfl⟩
      · exact fun h => h.2

example : ∀ d ∈ [((52 : Int), (65 : Int)), (102, 48)], HexDigit d.1 ∧ HexDigit d.2 := by simp [HexDigit, hexVal]

/-- **C07, exactly.** `\x{}` does not compile. -/
theorem C07_empty : compile (str "\\x{}") = none := by decide +kernel

/-- **C07, exactly, an odd number of digits.** If a digit is left over behind a pair it is dropped (provided it is a decimal digit or one of `A`…`F`). -/
theorem C07_odd_exact (ds : List (Int × Int)) (c : Int) (hne : ds ≠ []) (h : ∀ d ∈ ds, HexDigit d.1 ∧ HexDigit d.2)
    (hc : IsDigit c ∨ (65 ≤ c ∧ c ≤ 70)) :
    compile (92 :: 120 :: 123 :: ((hexDigits ds ++ [c]) ++ [125])) = compile (92 :: 120 :: 123 :: (hexDigits ds ++ [125])) := by
  have hw : Plainly (hexDigits ds ++ [c]) := by
    intro x hx
    simp only [List.mem_append, List.mem_singleton] at hx
    rcases hx with hx | rfl
    · exact hexDigits_plain h x hx
    · unfold IsDigit at hc; omega
  have hcx : isHex c = true := by unfold IsDigit at hc; simp [isHex]; omega
  rw [hex_brace hw, hex_brace (hexDigits_plain h)]
  congr 1
  clear hw
  induction ds with
  | nil => exact absurd rfl hne
  | cons d ds ih =>
    obtain ⟨a, b⟩ := d
    rw [hexToBin_step]
    cases ds with
    | nil => simp [hexDigits, hexToBin, hcx]
    | cons d' ds =>
      have := ih (by simp) (fun d hm => h d (by simp [hm]))
      obtain ⟨x, y⟩ := d'
      simp only [hexDigits, List.cons_append] at this ⊢
      rw [hexToBin]
      · rw [this]
      · simp

/-- The value of a triple, if the digit `8` counts as eight. -/
def goodTriple (d : Int × Int × Int) : Prop :=
  d.1 ≠ 57 ∧ d.2.1 ≠ 57 ∧ d.2.2 ≠ 57 ∧ (d.2.1 = 56 → d.1 % 2 = 0) ∧ (d.2.2 = 56 → d.2.1 % 2 = 0)

theorem triple_exact {a b c : Int} (ha : IsDigit a) (hb : IsDigit b) (hc : IsDigit c) :
    ((isOctal a && isOctal b && isOctal c) = true ∧ octTriple a b c = byte (64 * (a - 48) + 8 * (b - 48) + (c - 48))) ↔ goodTriple (a, b, c) := by
  have h : ∀ a ∈ str "0123456789", ∀ b ∈ str "0123456789", ∀ c ∈ str "0123456789",
      decide ((isOctal a && isOctal b && isOctal c) = true ∧ octTriple a b c = byte (64 * (a - 48) + 8 * (b - 48) + (c - 48))) =
        decide (a ≠ 57 ∧ b ≠ 57 ∧ c ≠ 57 ∧ (b = 56 → a % 2 = 0) ∧ (c = 56 → b % 2 = 0)) := by decide +kernel
  have := h a (digit_mem ha) b (digit_mem hb) c (digit_mem hc)
  rwa [decide_eq_decide] at this

theorem octalToBin_exact : ∀ (ds : List (Int × Int × Int)), (∀ d ∈ ds, IsDigit d.1 ∧ IsDigit d.2.1 ∧ IsDigit d.2.2) →
    (octalToBin (octDigits ds) = some (octBytes ds) ↔ ∀ d ∈ ds, goodTriple d)
  | [], _ => by simp [octDigits, octalToBin, octBytes]
  | (a, b, c) :: ds, h => by
    have hd := h (a, b, c) (by simp)
    have ih := octalToBin_exact ds (fun d hm => h d (by simp [hm]))
    have hp := triple_exact hd.1 hd.2.1 hd.2.2
    simp only [octDigits, octalToBin]
    by_cases hx : (isOctal a && isOctal b && isOctal c) = true
    · rw [if_pos hx]
      cases e : octalToBin (octDigits ds) with
      | none =>
        rw [e] at ih
        simp only [Option.map_none, reduceCtorEq, false_iff] at ih ⊢
        exact fun hall => ih (fun d hm => hall d (by simp [hm]))
      | some v =>
        rw [e] at ih
        simp only [Option.map_some, Option.some.injEq, octBytes, List.cons.injEq, List.forall_mem_cons] at ih ⊢
        rw [ih]
        constructor
        · rintro ⟨h1, h2⟩; exact ⟨hp.1 ⟨hx, h1⟩, h2⟩
        · rintro ⟨h1, h2⟩; exact ⟨(hp.2 h1).2, h2⟩
    · rw [if_neg hx]
      simp only [reduceCtorEq, false_iff]
      intro hall
      exact hx (hp.2 (hall (a, b, c) (by simp))).1

theorem octDigits_plain {ds : List (Int × Int × Int)} (h : ∀ d ∈ ds, IsDigit d.1 ∧ IsDigit d.2.1 ∧ IsDigit d.2.2) : Plainly (octDigits ds) := by
  have hone : ∀ a, IsDigit a → a ≠ 44 ∧ a ≠ 123 ∧ a ≠ 124 ∧ a ≠ 125 := by
    intro a ha; unfold IsDigit at ha; omega
  induction ds with
  | nil => intro c hc; simp [octDigits] at hc
  | cons d ds ih =>
    intro x hx
    obtain ⟨a, b, c⟩ := d
    simp only [octDigits, List.mem_cons] at hx
    have hd := h (a, b, c) (by simp)
    rcases hx with rfl | rfl | rfl | hx
    · exact hone _ hd.1
    · exact hone _ hd.2.1
    · exact hone _ hd.2.2
    · exact ih (fun d hm => h d (by simp [hm])) x hx

/-- **C08, exactly, the brace form.** `\o{…}` with any number of triples of decimal digits is compiled to the byte string it spells (modulo 256, the digit `8`
counting as eight) if and only if there is a triple and every triple is in order in the sense of `C08_value`; in particular if all digits are octal. -/
theorem C08_string_exact (ds : List (Int × Int × Int)) (h : ∀ d ∈ ds, IsDigit d.1 ∧ IsDigit d.2.1 ∧ IsDigit d.2.2) :
    compile (92 :: 111 :: 123 :: (octDigits ds ++ [125])) = some (.exact (octBytes ds) (octBytes ds)) ↔ ds ≠ [] ∧ ∀ d ∈ ds, goodTriple d := by
  rw [oct_brace (octDigits_plain h), ← octalToBin_exact ds h]
  cases e : octalToBin (octDigits ds) with
  | none => simp
  | some v =>
    by_cases hn : v = []
    · subst hn
      simp only [Option.bind_some, ↓reduceIte, reduceCtorEq, Option.some.injEq, false_iff, not_and]
      intro hne h2
      cases ds with
      | nil => exact hne rfl
      | cons d ds => obtain ⟨a, b, c⟩ := d; simp [octBytes] at h2
    · simp only [Option.bind_some, hn, ↓reduceIte, Option.some.injEq, Node.exact.injEq, and_self]
      constructor
      · rintro rfl; exact ⟨by rintro rfl; exact hn rfl, rfl⟩
      · exact fun h => h.2

theorem octalToBin_length : ∀ (n : Nat) (w : List Int), w.length ≤ n → w.length % 3 ≠ 0 → octalToBin w = none
  | n, [], _, h => absurd rfl h
  | n, [a], _, _ => rfl
  | n, [a, b], _, _ => rfl
  | 0, a :: b :: c :: w, hl, _ => by simp at hl
  | n + 1, a :: b :: c :: w, hl, h => by
    have := octalToBin_length n w (by simp at hl; omega) (by simp at h; omega)
    simp [octalToBin, this]

/-- **C08, exactly.** A number of digits that is not divisible by three does not compile. -/
theorem C08_length (w : List Int) (h : ∀ c ∈ w, IsDigit c) (hl : w.length % 3 ≠ 0) : compile (92 :: 111 :: 123 :: (w ++ [125])) = none := by
  have hw : Plainly w := fun c hc => by have := h c hc; unfold IsDigit at this; omega
  rw [oct_brace hw, octalToBin_length w.length w (Nat.le_refl _) hl]
  rfl

end ERegex.Props

import Verif.Spec.FindAll
import Verif.Props.Capture
import Verif.Props.Iterate
/-!
# C50–C54 : finding all occurrences

`compile p` is the optimized tree that is run, `construct` the constructor of a match result, `rangeFor` the loop
`for (auto v : r)` over a match result.
-/
set_option autoImplicit false
namespace ERegex.Props
open ERegex ERegex.Spec
open ERegex.Conformance (lit m)

/-- A view as reported by the library. -/
def span (x : Nat × Nat) : View := some ((x.1 : Int), (x.2 : Int))

/-- The pattern `p` compiles, and in every query (of `char` values, shorter than 2^32-1) matching reports the first of the occurrences
described by `f`, or no match if there is none, and a range-for over the result (whatever was done with it before) visits all of them, in
order, and ends. -/
def FindsAll (p : List Int) (f : List Int → Nat → Option Nat) : Prop :=
  ∃ t, compile p = some t ∧ ∀ (cx : Ctx), (∀ c ∈ cx.query, c ∈ allChars) → cx.query.length < 4294967295 → ∀ (fuel : Nat), cx.query.length ≤ fuel →
    ∃ l, Scan (f cx.query) cx.query.length 0 l ∧
      (∃ st, construct cx t fuel = .ok st ∧ toView st = l.head?.bind span) ∧
      ∀ r, rangeFor cx t fuel cx.query.length r = some (l.map span, true)

theorem eats_lt (q : List Int) : ∀ (s : Sq) (i e : Nat), s.eats = true → i ≤ q.length → e ∈ s.picks q i → i < e
  | .nil _, _, _, h, _, _ => by simp [Sq.eats] at h
  | .cons a k s, i, e, h, hi, he => by
    simp only [Sq.picks, List.mem_flatMap] at he
    obtain ⟨n, hn, he⟩ := he
    obtain ⟨h1, h2⟩ := counts_sub k _ n hn
    have hle : i + n ≤ q.length := Nat.le_trans (Nat.add_le_add_left h2 i) (runLen_le q _ i hi)
    have h3 := picks_le q s (i + n) e hle he
    simp only [Sq.eats, Bool.or_eq_true, bne_iff_ne, ne_eq] at h
    rcases h with h | h
    · have := h1.1; omega
    · have := eats_lt q s (i + n) e h hle he; omega

/-- Every alternative must take a character. -/
def Alts.eats (as : Alts) : Bool := as.list.all Sq.eats

theorem picks_lt {q : List Int} {as : Alts} (h : Alts.eats as = true) {i e : Nat} (hi : i ≤ q.length) (he : e ∈ as.picks q i) : i < e ∧ e ≤ q.length := by
  obtain ⟨b, hb, he⟩ := alts_mem q as i e he
  simp only [Alts.eats, List.all_eq_true] at h
  exact ⟨eats_lt q b i e (h b hb) hi he, (picks_le q b i e hi he).2⟩

theorem view_eq {st : St} {s e : Nat} (h : toView st = some ((s : Int), (e : Int))) : st.accepted = true := by
  cases ha : st.accepted with
  | true => rfl
  | false => simp [toView, ha] at h

/-- The occurrences described by a pattern. -/
def bestAt (as : Alts) (q : List Int) (x : Nat) : Option Nat := (as.picks q x).head?

theorem best_none {as : Alts} {q : List Int} {x : Nat} (h : as.picks q x = []) : bestAt as q x = none := by simp [bestAt, h]

theorem best_bound {as : Alts} (h : Alts.eats as = true) {q : List Int} {x e : Nat} (hx : x ≤ q.length) (he : bestAt as q x = some e) : x < e ∧ e ≤ q.length :=
  picks_lt h hx (List.mem_of_mem_head? he)

theorem best_len {as : Alts} (h : Alts.eats as = true) {q : List Int} {x e : Nat} (he : bestAt as q x = some e) : x < q.length := by
  have h1 : e ∈ as.picks q x := List.mem_of_mem_head? he
  obtain ⟨b, hb, h2⟩ := alts_mem q as x e h1
  simp only [Alts.eats, List.all_eq_true] at h
  exact eats_picks q b x (h b hb) (List.ne_nil_of_mem h2)

/-- There is only one such list (if matches are not empty and end within the text). -/
theorem scan_unique {f : Nat → Option Nat} {len i : Nat} {l l' : List (Nat × Nat)} (h : Scan f len i l) (hlt : ∀ s e, f s = some e → s < len)
    (h' : Scan f len i l') : l = l' := by
  induction h generalizing l' with
  | stop h1 =>
    cases h' with
    | stop => rfl
    | hit h2 h3 _ _ => rw [h1 _ h2 (hlt _ _ h3)] at h3; cases h3
  | @hit i s e l h1 h2 h3 _ ih =>
    cases h' with
    | stop h4 => rw [h4 _ h1 (hlt _ _ h2)] at h2; cases h2
    | @hit _ s' e' l' g1 g2 g3 g4 =>
      have : s = s' := by
        rcases Nat.lt_trichotomy s s' with h | h | h
        · rw [g3 s h1 h] at h2; cases h2
        · exact h
        · rw [h3 s' g1 h] at g2; cases g2
      subst this
      rw [h2] at g2; cases g2
      rw [ih g4]

/-- **C50 (partial).** For every regular pattern (see C48) that must take a character and does not contain `$`: matching and a range-for
report the matches that a backtracking matcher prefers, from left to right, without overlap, none left out.  Missing: groups (for the text
of the first and the next match see C49), `$`, patterns that match the empty text (the range-for does not end, C33) and patterns that are
not regular. -/
theorem C50_find_all_partial (as : Alts) (hr : as.regular = true) (hc : ∀ c ∈ as.spell, c ∈ allChars) (he : Alts.eats as = true)
    (hd : as.dollar = false) : FindsAll as.spell (bestAt as) := by
  obtain ⟨t, ht, hcon⟩ := C48_preferred_partial as hr hc
  obtain ⟨t', ht', hnext⟩ := C48_next_partial as hr hc
  rw [ht] at ht'; cases ht'
  refine ⟨t, ht, fun cx hq hlen fuel hfuel => ?_⟩
  have hd' : as.dollar = true → cx.post.head? = some 0 := by rw [hd]; simp
  obtain ⟨st, e1, e2, e3⟩ := hcon cx hq hlen hd' fuel hfuel
  have key : ∀ (n : Nat) (it : St) (s e : Nat) (r : St), Reach cx t it → toView it = some ((s : Int), (e : Int)) → e ≤ cx.query.length →
      cx.query.length - e < n → ∃ l, Scan (bestAt as cx.query) cx.query.length e l ∧ visit cx t fuel (endR r) n it = some ((some ((s : Int), (e : Int))) :: l.map span, true) := by
    intro n
    induction n with
    | zero => intro it s e r _ _ _ h; omega
    | succ n ih =>
      intro it s e r hreach hv hle hn
      have hacc := view_eq hv
      obtain ⟨st', f1, f2, f3⟩ := hnext cx hq hlen hd' fuel hfuel it hreach s e hv
      simp only [visit, neqR_end, hacc, if_true, f1, hv]
      cases ha : st'.accepted with
      | true =>
        obtain ⟨s', e', g1, g2, g3, g4⟩ := f2 ha
        have hs := best_len he g3
        have hb := best_bound he (Nat.le_of_lt hs) g3
        obtain ⟨l, i1, i2⟩ := ih st' s' e' r (.next hreach f1) g1 hb.2 (by omega)
        refine ⟨(s', e') :: l, .hit g2 g3 (fun x h1 h2 => best_none (g4 x h1 h2)) i1, ?_⟩
        rw [i2]; simp [span]
      | false =>
        refine ⟨[], .stop (fun x h1 h2 => best_none (f3 ha x h1 h2)), ?_⟩
        cases n <;> simp [visit, neqR_end, ha]
  cases ha : st.accepted with
  | true =>
    obtain ⟨s, e, g1, g2, g3, g4⟩ := e2 ha
    have hs := best_len he g3
    have hb := best_bound he (Nat.le_of_lt hs) g3
    obtain ⟨l, i1, _⟩ := key cx.query.length st s e st (.make e1) g1 hb.2 (by omega)
    refine ⟨(s, e) :: l, .hit g2 g3 (fun x h1 h2 => best_none (g4 x h1 h2)) i1, ⟨st, e1, by simp [g1, span]⟩, fun r => ?_⟩
    obtain ⟨l', j1, j2⟩ := key cx.query.length st s e r (.make e1) g1 hb.2 (by omega)
    have := scan_unique i1 (fun s e h => best_len he h) j1
    subst this
    simp only [rangeFor, beginR, e1, j2]
    simp [span]
  | false =>
    refine ⟨[], .stop (fun x _ h2 => best_none (e3 ha x (Or.inr h2))), ⟨st, e1, by simp [toView, ha]⟩, fun r => ?_⟩
    simp only [rangeFor, beginR, e1]
    cases cx.query.length <;> simp [visit, neqR_end, ha]

/-- The same occurrences, described otherwise. -/
theorem FindsAll.congr {p : List Int} {f g : List Int → Nat → Option Nat} (h : FindsAll p f)
    (hfg : ∀ q x, (∀ c ∈ q, c ∈ allChars) → f q x = g q x) : FindsAll p g := by
  obtain ⟨t, ht, h⟩ := h
  refine ⟨t, ht, fun cx hq hlen fuel hfuel => ?_⟩
  have : f cx.query = g cx.query := funext (fun x => hfg cx.query x hq)
  rw [← this]
  exact h cx hq hlen fuel hfuel

/-! ## C51, C52 : literal text, words -/

/-- A sequence of plain characters. -/
def plain (w : List Int) : Sq := w.foldr (fun c s => .cons (.chr c) .once s) (.nil false)

theorem plain_spell : ∀ w : List Int, (plain w).spell = w
  | [] => rfl
  | c :: w => by
    have := plain_spell w
    simp only [plain, List.foldr_cons, Sq.spell, Atom.spell, Quant.spell] at this ⊢
    simp [this]

theorem counts_once (a : Nat) : Quant.once.counts a = if 1 ≤ a then [1] else [] := counts_fixed (n := 1) rfl rfl a

theorem run_one (c : Int) (q : List Int) (x : Nat) : 1 ≤ runLen (Atom.chr c).set (q.drop x) ↔ q[x]? = some c := by
  rw [← List.head?_drop]
  cases q.drop x with
  | nil => simp [runLen]
  | cons y l =>
    simp only [runLen, List.takeWhile_cons, Atom.set]
    by_cases h : y = c
    · simp [h]
    · simp [h]

theorem plain_picks (q : List Int) : ∀ (w : List Int) (x : Nat), (plain w).picks q x = if w.isPrefixOf (q.drop x) then [x + w.length] else []
  | [], x => by simp [plain, Sq.picks]
  | c :: w, x => by
    have ih := plain_picks q w (x + 1)
    have h1 : (plain (c :: w)).picks q x = (Quant.once.counts (runLen (Atom.chr c).set (q.drop x))).flatMap (fun n => (plain w).picks q (x + n)) := rfl
    rw [h1, counts_once]
    by_cases h : q[x]? = some c
    · rw [if_pos ((run_one c q x).2 h)]
      have hlt : x < q.length := by
        rcases Nat.lt_or_ge x q.length with h' | h'
        · exact h'
        · rw [List.getElem?_eq_none h'] at h; cases h
      have hd : q.drop x = c :: q.drop (x + 1) := by
        rw [List.drop_eq_getElem_cons hlt]
        rw [List.getElem?_eq_getElem hlt] at h
        simp only [Option.some.injEq] at h
        rw [h]
      rw [hd]
      simp only [List.flatMap_cons, List.flatMap_nil, List.append_nil, ih, List.isPrefixOf, beq_self_eq_true, Bool.true_and, List.length_cons]
      split <;> simp <;> omega
    · rw [if_neg (fun h' => h ((run_one c q x).1 h'))]
      rw [← List.head?_drop] at h
      cases hq : q.drop x with
      | nil => simp [List.isPrefixOf]
      | cons y l =>
        rw [hq] at h
        simp only [List.head?_cons, Option.some.injEq] at h
        have : (c == y) = false := by simpa using fun h' : c = y => h h'.symm
        simp [List.isPrefixOf, this]

theorem plain_regular : ∀ (w : List Int), (∀ c ∈ w, plainB c = true) → (plain w).regular = true
  | [], _ => rfl
  | c :: w, h => by
    have ih := plain_regular w (fun c hc => h c (by simp [hc]))
    simp only [plain, List.foldr_cons] at ih ⊢
    simp [Sq.regular, Atom.ok, Atom.steady, Quant.sane, Quant.ok, Quant.hi, Quant.lo, pieceOk, Quant.mode, Quant.fixed, h c (by simp), ih]

theorem plain_ok {w : List Int} (hw : w ≠ []) (h : ∀ c ∈ w, plainB c = true) : altOk false (plain w) = true ∧ (plain w).eats = true ∧ (plain w).dollar = false := by
  have hd : ∀ w : List Int, (plain w).dollar = false := by
    intro w
    induction w with
    | nil => rfl
    | cons c w ih => simpa [plain, Sq.dollar] using ih
  cases w with
  | nil => exact absurd rfl hw
  | cons c w =>
    have he : (plain (c :: w)).eats = true := by simp [plain, Sq.eats, Quant.lo]
    refine ⟨?_, he, hd _⟩
    simp only [altOk, plain_regular _ h, he, Bool.true_and, Bool.false_or]
    rfl

/-- **C51.** Searching for literal text: for every non-empty text without operators, matching reports its first occurrence and a range-for
visits its occurrences from left to right, without overlap. -/
theorem C51_literal_text (w : List Int) (hw : w ≠ []) (hp : ∀ c ∈ w, plainB c = true ∧ c ∈ allChars) : FindsAll w (literalAt w) := by
  obtain ⟨h1, h2, h3⟩ := plain_ok hw (fun c hc => (hp c hc).1)
  have hs : (Alts.last false (plain w)).spell = w := by simp [Alts.spell, plain_spell]
  have := C50_find_all_partial (.last false (plain w)) (by simp only [Alts.regular, h1, Bool.true_or]) (by rw [hs]; exact fun c hc => (hp c hc).2)
    (by simp [Alts.eats, Alts.list, h2]) (by simpa [Alts.dollar] using h3)
  rw [hs] at this
  refine this.congr (fun q x _ => ?_)
  simp only [bestAt, Alts.picks, hatPicks, Bool.false_and, Bool.false_eq_true, if_false, plain_picks, literalAt]
  split <;> rfl

/-! ### text with escapes -/

/-- The pieces, one after the other. -/
def inRow (l : List Atom) : Sq := l.foldr (fun a s => .cons a .once s) (.nil false)

theorem inRow_spell : ∀ l : List Atom, (inRow l).spell = l.flatMap Atom.spell
  | [] => rfl
  | a :: l => by
    have := inRow_spell l
    simp only [inRow, List.foldr_cons, Sq.spell, Quant.spell] at this ⊢
    simp [this]

theorem letter_set {a : Atom} {c : Int} (h : a.letter = some c) : a.set = fun x => x == c := by
  funext x
  cases a with
  | chr d => simp only [Atom.letter, Option.some.injEq] at h; simp [Atom.set, h]
  | hex d e => simp only [Atom.letter, Option.some.injEq] at h; simp [Atom.set, h]
  | oct d e f => simp only [Atom.letter, Option.some.injEq] at h; simp [Atom.set, h]
  | esc d =>
    simp only [Atom.letter] at h
    split at h
    · cases h
    · simp only [Option.some.injEq] at h
      simp only [Atom.set, escape]
      split at h <;> subst h <;> grind
  | dot => simp [Atom.letter] at h
  | cls => simp [Atom.letter] at h
  | group => simp [Atom.letter] at h

theorem letter_steady {a : Atom} {c : Int} (h : a.letter = some c) : a.steady = true := by
  cases a with
  | esc d =>
    simp only [Atom.letter] at h
    split at h
    · cases h
    · rename_i hd; simp only [Atom.steady, bne_iff_ne, ne_eq]; exact fun e => hd (Or.inr (Or.inr e))
  | cls => simp [Atom.letter] at h
  | group => simp [Atom.letter] at h
  | _ => rfl

theorem inRow_picks (q : List Int) : ∀ (l : List Atom) (w : List Int), l.map Atom.letter = w.map some → ∀ x, (inRow l).picks q x = (plain w).picks q x
  | [], [], _, _ => rfl
  | [], _ :: _, h, _ => by simp at h
  | _ :: _, [], h, _ => by simp at h
  | a :: l, c :: w, h, x => by
    simp only [List.map_cons, List.cons.injEq] at h
    have ih := inRow_picks q l w h.2
    have h1 : (inRow (a :: l)).picks q x = (Quant.once.counts (runLen a.set (q.drop x))).flatMap (fun n => (inRow l).picks q (x + n)) := rfl
    have h2 : (plain (c :: w)).picks q x = (Quant.once.counts (runLen (Atom.chr c).set (q.drop x))).flatMap (fun n => (plain w).picks q (x + n)) := rfl
    have h3 : a.set = (Atom.chr c).set := by rw [letter_set h.1]; rfl
    simp only [h1, h2, h3, ih]

theorem inRow_regular : ∀ (l : List Atom), (∀ a ∈ l, a.ok = true ∧ a.steady = true) → (inRow l).regular = true
  | [], _ => rfl
  | a :: l, h => by
    have ih := inRow_regular l (fun c hc => h c (by simp [hc]))
    simp only [inRow, List.foldr_cons] at ih ⊢
    simp [Sq.regular, Quant.sane, Quant.ok, Quant.hi, Quant.lo, pieceOk, Quant.mode, Quant.fixed, h a (by simp), ih]

theorem inRow_dollar : ∀ l : List Atom, (inRow l).dollar = false
  | [] => rfl
  | _ :: l => by simpa [inRow, Sq.dollar] using inRow_dollar l

/-- **C51.** The same of a text some of whose characters are written as escapes (`\.`, `\*`, `\n`, `\x41`, `\101`, …): `w` is the text that the pieces
stand for. -/
theorem C51_escaped_text (l : List Atom) (w : List Int) (hl : l.map Atom.letter = w.map some) (hw : w ≠ []) (hp : ∀ a ∈ l, a.ok = true)
    (hc : ∀ c ∈ l.flatMap Atom.spell, c ∈ allChars) : FindsAll (l.flatMap Atom.spell) (literalAt w) := by
  have hst : ∀ a ∈ l, a.ok = true ∧ a.steady = true := fun a ha => by
    have : a.letter ∈ w.map some := by rw [← hl]; exact List.mem_map_of_mem ha
    obtain ⟨c, _, hc⟩ := List.mem_map.1 this
    exact ⟨hp a ha, letter_steady hc.symm⟩
  have he : (inRow l).eats = true := by
    cases l with
    | nil => cases w with
      | nil => exact absurd rfl hw
      | cons => simp at hl
    | cons a l => simp [inRow, Sq.eats, Quant.lo]
  have hal : altOk false (inRow l) = true := by
    simp only [altOk, inRow_regular _ hst, he, Bool.true_and, Bool.false_or]
    cases l with
    | nil => exact absurd he (by decide)
    | cons a l => simpa [inRow, Sq.steadyHead] using (hst a (by simp)).2
  have hs : (Alts.last false (inRow l)).spell = l.flatMap Atom.spell := by simp [Alts.spell, inRow_spell]
  have := C50_find_all_partial (.last false (inRow l)) (by simp only [Alts.regular, hal, Bool.true_or]) (by rw [hs]; exact hc)
    (by simp [Alts.eats, Alts.list, he]) (by simpa [Alts.dollar] using inRow_dollar l)
  rw [hs] at this
  refine this.congr (fun q x _ => ?_)
  simp only [bestAt, Alts.picks, hatPicks, Bool.false_and, Bool.false_eq_true, if_false, inRow_picks q l w hl, plain_picks, literalAt]
  split <;> rfl

theorem digits_chars {c : Int} (h : 48 ≤ c ∧ c ≤ 57) : c ∈ allChars := by
  obtain ⟨h1, h2⟩ := h
  have : c = 48 ∨ c = 49 ∨ c = 50 ∨ c = 51 ∨ c = 52 ∨ c = 53 ∨ c = 54 ∨ c = 55 ∨ c = 56 ∨ c = 57 := by omega
  rcases this with rfl | rfl | rfl | rfl | rfl | rfl | rfl | rfl | rfl | rfl <;> decide +kernel

/-- **C07 (decimal nibbles).** `\xNM` finds the occurrences of the byte `16·N + M`, and nothing else. -/
theorem C07_finds_partial (a b : Int) (ha : 48 ≤ a ∧ a ≤ 57) (hb : 48 ≤ b ∧ b ≤ 57) :
    FindsAll [92, 120, a, b] (literalAt [byte (16 * (a - 48) + (b - 48))]) := by
  have := C51_escaped_text [.hex a b] [byte (16 * (a - 48) + (b - 48))] rfl (by simp) (by simp [Atom.ok, digitB, ha, hb])
    (by simp only [List.flatMap_cons, List.flatMap_nil, List.append_nil, Atom.spell, List.forall_mem_cons]
        exact ⟨by decide +kernel, by decide +kernel, digits_chars ha, digits_chars hb, by simp⟩)
  simpa [Atom.spell] using this

/-- **C08.** `\NNN` with octal digits finds the occurrences of the spelled byte, and nothing else. -/
theorem C08_finds (a b c : Int) (ha : 48 ≤ a ∧ a ≤ 55) (hb : 48 ≤ b ∧ b ≤ 55) (hc : 48 ≤ c ∧ c ≤ 55) :
    FindsAll [92, a, b, c] (literalAt [byte (64 * (a - 48) + 8 * (b - 48) + (c - 48))]) := by
  have := C51_escaped_text [.oct a b c] [byte (64 * (a - 48) + 8 * (b - 48) + (c - 48))] rfl (by simp) (by simp [Atom.ok, octalB, ha, hb, hc])
    (by simp only [List.flatMap_cons, List.flatMap_nil, List.append_nil, Atom.spell, List.forall_mem_cons]
        exact ⟨by decide +kernel, digits_chars (by omega), digits_chars (by omega), digits_chars (by omega), by simp⟩)
  simpa [Atom.spell] using this

/-- `w|w1|w2|…` -/
def choice : List Int → List (List Int) → Alts
  | w, [] => .last false (plain w)
  | w, w' :: ws => .more false (plain w) (choice w' ws)

theorem choice_spell : ∀ (w : List Int) (ws : List (List Int)), (choice w ws).spell = [124].intercalate (w :: ws)
  | w, [] => by simp [choice, Alts.spell, plain_spell, List.intercalate]
  | w, w' :: ws => by
    simp only [choice, Alts.spell, plain_spell, choice_spell w' ws]
    simp [List.intercalate, List.intersperse]

theorem choice_list : ∀ (w : List Int) (ws : List (List Int)), (choice w ws).list = (w :: ws).map plain
  | w, [] => rfl
  | w, w' :: ws => by simp [choice, Alts.list, choice_list w' ws]

theorem choice_picks (q : List Int) : ∀ (w : List Int) (ws : List (List Int)) (x : Nat), (choice w ws).picks q x = (w :: ws).flatMap (fun w => (plain w).picks q x)
  | w, [], x => by simp [choice, Alts.picks, hatPicks]
  | w, w' :: ws, x => by simp [choice, Alts.picks, hatPicks, choice_picks q w' ws]

theorem choice_ok : ∀ (w : List Int) (ws : List (List Int)), (∀ v ∈ w :: ws, altOk false (plain v) = true) → (choice w ws).allOk = true ∧ (choice w ws).regular = true
  | w, [], h => by simp [choice, Alts.allOk, Alts.regular, h w]
  | w, w' :: ws, h => by
    have ih := choice_ok w' ws (fun v hv => h v (by simp at hv ⊢; grind))
    simp [choice, Alts.allOk, Alts.regular, h w, ih.1]

theorem choice_dollar : ∀ (w : List Int) (ws : List (List Int)), (∀ v ∈ w :: ws, (plain v).dollar = false) → (choice w ws).dollar = false
  | w, [], h => by simp [choice, Alts.dollar, h w]
  | w, w' :: ws, h => by
    have ih := choice_dollar w' ws (fun v hv => h v (by simp at hv ⊢; grind))
    simp [choice, Alts.dollar, h w, ih]

theorem words_at (q : List Int) (x : Nat) : ∀ ws : List (List Int), (ws.flatMap (fun w => (plain w).picks q x)).head? = wordAt ws q x
  | [] => rfl
  | w :: ws => by
    have ih := words_at q x ws
    simp only [wordAt] at ih ⊢
    rw [List.flatMap_cons, plain_picks]
    cases h : w.isPrefixOf (q.drop x) with
    | true => simp [h]
    | false => simp [h, ih]

theorem mem_intersperse {α : Type} {a x : α} : ∀ {l : List α}, x ∈ l.intersperse a → x = a ∨ x ∈ l
  | [], h => by simp [List.intersperse] at h
  | [y], h => by simp [List.intersperse] at h; simp [h]
  | y :: z :: l, h => by
    simp only [List.intersperse, List.mem_cons] at h
    rcases h with h | h | h
    · simp [h]
    · simp [h]
    · rcases mem_intersperse h with h | h
      · exact Or.inl h
      · exact Or.inr (List.mem_cons_of_mem _ h)

/-- **C52.** Searching for one of several words: for every non-empty list of non-empty texts without operators, joined by `|`, matching
and a range-for report, from left to right and without overlap, the places where one of them occurs; where several occur at the same
place, the one listed first. -/
theorem C52_words (ws : List (List Int)) (hws : ws ≠ []) (hne : ∀ w ∈ ws, w ≠ []) (hp : ∀ w ∈ ws, ∀ c ∈ w, plainB c = true ∧ c ∈ allChars) :
    FindsAll ([124].intercalate ws) (wordAt ws) := by
  cases ws with
  | nil => exact absurd rfl hws
  | cons w ws =>
    have hok := fun v hv => plain_ok (hne v hv) (fun c hc => (hp v hv c hc).1)
    have hs := choice_spell w ws
    have := C50_find_all_partial (choice w ws) (choice_ok w ws (fun v hv => (hok v hv).1)).2 ?_ ?_ (choice_dollar w ws (fun v hv => (hok v hv).2.2))
    · rw [hs] at this
      refine this.congr (fun q x _ => ?_)
      simp only [bestAt, choice_picks]
      exact words_at q x _
    · rw [hs]
      intro c hc
      simp only [List.intercalate, List.mem_flatten] at hc
      obtain ⟨v, hv, hcv⟩ := hc
      rcases mem_intersperse hv with rfl | hv
      · simp only [List.mem_singleton] at hcv; subst hcv; decide +kernel
      · exact (hp v hv c hcv).2
    · simp only [Alts.eats, choice_list, List.all_map, List.all_eq_true]
      exact fun v hv => (hok v hv).2.1

/-! ## C53 : runs of characters -/

theorem top_lo {k : Quant} (hs : k.sane = true) (a : Nat) : k.lo ≤ k.top a ↔ k.lo ≤ a := by
  rw [le_top]
  refine ⟨And.right, fun h => ⟨fun b hb => ?_, h⟩⟩
  simp only [Quant.sane, hb, Bool.and_eq_true, decide_eq_true_eq] at hs
  exact hs.2.1

theorem loop_best (a : Atom) (k : Quant) (hs : k.sane = true) (hm : k.mode ≠ .lazy) (q : List Int) (x : Nat) :
    bestAt (.last false (.cons a k (.nil false))) q x = runAt a.set k.lo k.hi q x := by
  simp only [bestAt, Alts.picks, hatPicks, Bool.false_and, Bool.false_eq_true, if_false, Sq.picks, runAt]
  split
  · rename_i h
    rw [head_top ((top_lo hs _).2 h) (by simp) (fun h => absurd h hm)]
    simp only [List.head?_cons, Quant.top]
    cases k.hi <;> rfl
  · rename_i h
    rw [counts_nil (fun m h1 h2 => absurd (Nat.le_trans h1.1 h2) h)]
    rfl

theorem loop_regular {a : Atom} (ha : a.ok = true) (hst : a.steady = true) {k : Quant} (hs : k.sane = true) (hm : k.mode ≠ .lazy) :
    (Alts.last false (.cons a k (.nil false))).regular = true := by
  have hk : pieceOk a k (.nil false) = true := by
    unfold pieceOk
    cases h : k.mode with
    | lazy => exact absurd h hm
    | possessive => rfl
    | greedy => simp [keeps, h, meets, Sq.shown, Sq.nullable]
  simp [Alts.regular, Sq.regular, Sq.loopHead, Sq.nullable, ha, hst, hs, hk]

/-- **C53.** Searching for repetitions of a character, `\d`, `\w`, `.`, another escape but `\s`, or a class without `\s` that is not
negated (`a`), with any quantifier `k` (`{n}`, `{n,}`, `{n,m}`, `+`, `?`, …, or their possessive forms) that requires at least one:
matching and a range-for report, from left to right and without overlap, the places where enough of these characters follow each
other; each time as many as follow, up to the upper bound. -/
theorem C53_repetitions (a : Atom) (ha : a.ok = true) (hst : a.steady = true) (k : Quant) (hs : k.sane = true) (hm : k.mode ≠ .lazy) (hlo : k.lo ≠ 0)
    (hc : ∀ c ∈ a.spell ++ k.spell, c ∈ allChars) : FindsAll (a.spell ++ k.spell) (runAt a.set k.lo k.hi) := by
  have hspell : (Alts.last false (.cons a k (.nil false))).spell = a.spell ++ k.spell := by simp [Alts.spell, Sq.spell]
  have := C50_find_all_partial (.last false (.cons a k (.nil false))) (loop_regular ha hst hs hm) (by rw [hspell]; exact hc)
    (by simp [Alts.eats, Alts.list, Sq.eats, hlo]) rfl
  rw [hspell] at this
  exact this.congr (fun q x _ => loop_best a k hs hm q x)

theorem run_all {S : Int → Bool} {q : List Int} {s n : Nat} (h : n ≤ runLen S (q.drop s)) {x : Nat} {c : Int} (h1 : s ≤ x) (h2 : x < s + n)
    (hc : q[x]? = some c) : S c = true := by
  obtain ⟨d, hd, hs⟩ := (inClass_runLen q S s n).2 h (x - s) (by omega)
  rw [show s + (x - s) = x by omega, hc] at hd
  cases hd
  exact hs

theorem run_end {S : Int → Bool} {q : List Int} {s : Nat} {c : Int} (hc : q[s + runLen S (q.drop s)]? = some c) : S c = false := by
  cases hS : S c with
  | false => rfl
  | true =>
    have : runLen S (q.drop s) + 1 ≤ runLen S (q.drop s) := by
      rw [← inClass_runLen]
      intro k hk
      by_cases hk' : k < runLen S (q.drop s)
      · exact (inClass_runLen q S s _).2 (Nat.le_refl _) k hk'
      · have : k = runLen S (q.drop s) := by omega
        subst this
        exact ⟨c, hc, hS⟩
    omega

theorem run_pos {S : Int → Bool} {q : List Int} {s : Nat} : 1 ≤ runLen S (q.drop s) ↔ ∃ c, q[s]? = some c ∧ S c = true := by
  rw [← inClass_runLen]
  constructor
  · intro h; simpa using h 0 (by omega)
  · intro h k hk; have : k = 0 := by omega
    subst this; simpa using h

/-- The occurrences from `i` on are the maximal runs that begin at or after `i`, if `i` is not inside a run. -/
theorem scan_runs {S : Int → Bool} {q : List Int} {i : Nat} {l : List (Nat × Nat)} (h : Scan (runAt S 1 none q) q.length i l)
    (hi : 0 < i → (∃ c, q[i - 1]? = some c ∧ S c = true) → ∀ c, q[i]? = some c → S c = false) :
    (∀ s e, (s, e) ∈ l ↔ i ≤ s ∧ MaximalRun S q s e) ∧ l.Pairwise (fun x y => x.2 < y.1) ∧ ∀ x ∈ l, i ≤ x.1 := by
  induction h with
  | @stop i h1 =>
    refine ⟨fun s e => ⟨fun h => (by simp at h), fun ⟨h2, h3⟩ => ?_⟩, .nil, by simp⟩
    have hlt : s < q.length := by have := h3.lt; have := h3.le; omega
    have := h1 s h2 hlt
    simp only [runAt] at this
    rw [if_pos (run_pos.2 ⟨q[s], List.getElem?_eq_getElem hlt, h3.all s _ (Nat.le_refl _) h3.lt (List.getElem?_eq_getElem hlt)⟩)] at this
    cases this
  | @hit i s e l h1 h2 h3 h4 ih =>
    simp only [runAt] at h2
    split at h2
    case isFalse => cases h2
    rename_i hr
    simp only [Option.some.injEq] at h2
    obtain ⟨c0, hc0, hS0⟩ := run_pos.1 hr
    have hlt : s < q.length := by
      rcases Nat.lt_or_ge s q.length with h | h
      · exact h
      · rw [List.getElem?_eq_none h] at hc0; cases hc0
    have hle : e ≤ q.length := by have := runLen_le q S s (by omega); omega
    have hright : ∀ c, q[e]? = some c → S c = false := fun c hc => run_end (s := s) (by rw [h2]; exact hc)
    have hleft : 0 < s → ∀ c, q[s - 1]? = some c → S c = false := by
      intro hs c hc
      cases hS : S c with
      | false => rfl
      | true =>
        rcases Nat.lt_or_ge i s with h | h
        · have := h3 (s - 1) (by omega) (by omega)
          simp only [runAt] at this
          rw [if_pos (run_pos.2 ⟨c, hc, hS⟩)] at this
          cases this
        · have : i = s := by omega
          subst this
          have := hi hs ⟨c, hc, hS⟩ c0 hc0
          rw [hS0] at this; cases this
    have hmax : MaximalRun S q s e := ⟨by omega, hle, fun x c g1 g2 hc => run_all (Nat.le_refl _) g1 (by omega) hc, hleft, hright⟩
    obtain ⟨i1, i2, i3⟩ := ih (fun _ _ => hright)
    have ahead : ∀ x ∈ l, e < x.1 := by
      rintro ⟨a, b⟩ hx
      obtain ⟨g1, g2⟩ := (i1 a b).1 hx
      simp only
      rcases Nat.lt_or_ge e a with h | h
      · exact h
      · have : e = a := by omega
        subst this
        have hl : e < q.length := by have := g2.lt; have := g2.le; omega
        have g3 := hright q[e] (List.getElem?_eq_getElem hl)
        have g4 := g2.all e _ (Nat.le_refl _) g2.lt (List.getElem?_eq_getElem hl)
        rw [g3] at g4; cases g4
    refine ⟨fun a b => ?_, .cons ahead i2, ?_⟩
    · simp only [List.mem_cons, Prod.mk.injEq]
      constructor
      · rintro (⟨rfl, rfl⟩ | h)
        · exact ⟨h1, hmax⟩
        · exact ⟨by have := ahead _ h; simp only at this; omega, ((i1 a b).1 h).2⟩
      · rintro ⟨g1, g2⟩
        have hl : a < q.length := by have := g2.lt; have := g2.le; omega
        have hSa := g2.all a _ (Nat.le_refl _) g2.lt (List.getElem?_eq_getElem hl)
        rcases Nat.lt_trichotomy a s with h | h | h
        · have := h3 a g1 h
          simp only [runAt] at this
          rw [if_pos (run_pos.2 ⟨q[a], List.getElem?_eq_getElem hl, hSa⟩)] at this
          cases this
        · subst h
          refine Or.inl ⟨rfl, ?_⟩
          rcases Nat.lt_trichotomy b e with h | h | h
          · have hb : b < q.length := by omega
            have g3 := g2.right _ (List.getElem?_eq_getElem hb)
            have g4 := hmax.all b _ (by have := g2.lt; omega) h (List.getElem?_eq_getElem hb)
            rw [g3] at g4; cases g4
          · exact h
          · have hb : e < q.length := by have := g2.le; omega
            have g3 := hright _ (List.getElem?_eq_getElem hb)
            have g4 := g2.all e _ (by have := hmax.lt; omega) h (List.getElem?_eq_getElem hb)
            rw [g3] at g4; cases g4
        · refine Or.inr ((i1 a b).2 ⟨?_, g2⟩)
          rcases Nat.lt_or_ge a e with h' | h'
          · have hl' : a - 1 < q.length := by omega
            have g3 := g2.left (by omega) _ (List.getElem?_eq_getElem hl')
            have g4 := hmax.all (a - 1) _ (by omega) (by omega) (List.getElem?_eq_getElem hl')
            rw [g3] at g4; cases g4
          · exact h'
    · intro x hx
      simp only [List.mem_cons] at hx
      rcases hx with rfl | hx
      · exact h1
      · have := ahead x hx; have := hmax.lt; omega

/-- **C53.** In particular `X+` (and `X++`) splits the query into words: a range-for visits exactly the maximal runs of characters of `X`, from
left to right. -/
theorem C53_maximal_runs (a : Atom) (ha : a.ok = true) (hst : a.steady = true) (m : QMode) (hm : m ≠ .lazy)
    (hc : ∀ c ∈ a.spell ++ (Quant.plus m).spell, c ∈ allChars) :
    ∃ t, compile (a.spell ++ (Quant.plus m).spell) = some t ∧ ∀ (cx : Ctx), (∀ c ∈ cx.query, c ∈ allChars) → cx.query.length < 4294967295 →
      ∀ (fuel : Nat), cx.query.length ≤ fuel → ∃ l : List (Nat × Nat), (∀ s e, (s, e) ∈ l ↔ MaximalRun a.set cx.query s e) ∧
        l.Pairwise (fun x y => x.2 < y.1) ∧ ∀ r, rangeFor cx t fuel cx.query.length r = some (l.map span, true) := by
  obtain ⟨t, ht, h⟩ := C53_repetitions a ha hst (.plus m) rfl hm (by simp [Quant.lo]) hc
  refine ⟨t, ht, fun cx hq hlen fuel hfuel => ?_⟩
  obtain ⟨l, h1, _, h3⟩ := h cx hq hlen fuel hfuel
  obtain ⟨g1, g2, _⟩ := scan_runs h1 (fun h => absurd h (Nat.lt_irrefl 0))
  exact ⟨l, fun s e => by rw [g1]; simp, g2, h3⟩

/-! ## C54 : text between two characters -/

/-- `[^c]*c` -/
def upTo (c : Int) : Sq := .cons (.cls true [.chr c] false) (.star .greedy) (.cons (.chr c) .once (.nil false))

theorem not_meets {f g : Int → Bool} (h : ∀ x, f x = true → g x = true → False) : meets f g = false := by
  rw [Bool.eq_false_iff]
  intro hm
  simp only [meets, List.any_eq_true, Bool.and_eq_true] at hm
  obtain ⟨x, _, h1, h2⟩ := hm
  exact h x h1 h2

theorem upTo_keeps (c : Int) (h : ascii c = true) : meets (Atom.cls true [.chr c] false).shown (Sq.cons (.chr c) .once (.nil false)).shown = false := by
  refine not_meets (fun x h1 h2 => ?_)
  simp only [Sq.shown, Atom.shown, Atom.set, Quant.lo, Bool.or_eq_true, beq_iff_eq] at h2
  have : x = c := by simpa using h2
  subst this
  simp [Atom.shown, Item.test, h] at h1

theorem upTo_regular {c : Int} (h1 : plainB c = true) (h2 : classB c = true) (h3 : ascii c = true) : (upTo c).regular = true := by
  have hm : meets (Atom.cls true [.chr c] false).set (Sq.cons (.chr c) .once (.nil false)).first = false := by
    refine not_meets (fun x h1 h2 => ?_)
    simp only [Sq.first, Atom.set, Quant.lo, Bool.or_eq_true, beq_iff_eq] at h2
    have : x = c := by simpa using h2
    subst this
    simp [Atom.set, listed, Item.test] at h1
  have hk : keeps (.cls true [.chr c] false) (.star .greedy) (Sq.cons (.chr c) .once (.nil false)) = false := upTo_keeps c h3
  simp [upTo, Sq.regular, Atom.ok, Item.ok, Atom.skips, Atom.steady, Item.steady, Quant.sane, Quant.ok, Quant.hi, Quant.lo, pieceOk, Quant.mode, Quant.fixed,
    h1, h2, hm, hk]

theorem upTo_picks (q : List Int) (c : Int) (x : Nat) :
    (upTo c).picks q x = if x + runLen (fun y => y != c) (q.drop x) < q.length then [x + runLen (fun y => y != c) (q.drop x) + 1] else [] := by
  have hset : (Atom.cls true [.chr c] false).set = fun y => y != c := by
    funext y
    simp only [Atom.set, listed, Item.test, List.any_cons, List.any_nil, Bool.or_false, Bool.false_and]
    cases h : (y == c) <;> simp_all
  have h1 : (upTo c).picks q x = ((Quant.star .greedy).counts (runLen (fun y => y != c) (q.drop x))).flatMap (fun n => (plain [c]).picks q (x + n)) := by
    simp only [← hset]; rfl
  rw [h1]
  have hin : ∀ n, n < runLen (fun y => y != c) (q.drop x) → (plain [c]).picks q (x + n) = [] := by
    intro n hn
    rw [plain_picks]
    obtain ⟨d, hd, hs⟩ := (inClass_runLen q _ x _).2 (Nat.le_refl _) n hn
    rw [← List.head?_drop] at hd
    cases hq : q.drop (x + n) with
    | nil => simp [List.isPrefixOf]
    | cons y l =>
      rw [hq] at hd
      simp only [List.head?_cons, Option.some.injEq] at hd
      subst hd
      have : (c == y) = false := by
        simp only [bne_iff_ne, ne_eq] at hs
        simpa using fun h : c = y => hs h.symm
      simp [List.isPrefixOf, this]
  have hcounts : (Quant.star .greedy).counts (runLen (fun y => y != c) (q.drop x)) = (List.range' 0 (runLen (fun y => y != c) (q.drop x) + 1)).reverse := by
    simp [Quant.counts, Quant.mode, Quant.lo, Quant.top, Quant.hi]
  rw [hcounts, List.range'_1_concat, List.reverse_append]
  simp only [List.reverse_cons, List.reverse_nil, List.nil_append, List.flatMap_append, List.flatMap_cons, List.flatMap_nil, List.append_nil, Nat.zero_add]
  rw [flatMap_nil (l := (List.range' 0 _).reverse) (fun n hn => hin n (by simpa using hn)), List.append_nil, plain_picks]
  generalize hr : runLen (fun y => y != c) (q.drop x) = r
  split
  · rename_i h
    have hlt : x + r < q.length := by
      rcases Nat.lt_or_ge (x + r) q.length with h' | h'
      · exact h'
      · rw [List.drop_eq_nil_of_le h'] at h; simp [List.isPrefixOf] at h
    rw [if_pos hlt]; rfl
  · rename_i h
    split
    · rename_i hlt
      have hc : q[x + r]? = some q[x + r] := List.getElem?_eq_getElem hlt
      have := run_end (S := fun y => y != c) (s := x) (c := q[x + r]) (by rw [hr]; exact hc)
      simp only [bne_eq_false_iff_eq] at this
      rw [List.drop_eq_getElem_cons hlt, this] at h
      simp [List.isPrefixOf] at h
    · rfl

/-- **C54.** Text between two characters: for every plain character `o` and every plain ASCII character `c` (other than `-`), matching
and a range-for with `o[^c]*c` report, from left to right and without overlap, every `o` that has a `c` behind it, up to the next `c`. -/
theorem C54_delimited (o c : Int) (ho : plainB o = true ∧ o ∈ allChars) (h1 : plainB c = true) (h2 : classB c = true) (h3 : ascii c = true) :
    FindsAll ([o] ++ [91, 94, c, 93, 42, c]) (untilAt o c) := by
  have hcc : c ∈ allChars := by
    simp only [ascii, Bool.and_eq_true, decide_eq_true_eq] at h3
    simp only [allChars, List.mem_map, List.mem_range]
    exact ⟨(c + 128).toNat, by omega, by omega⟩
  have hs : (Alts.last false (.cons (.chr o) .once (upTo c))).spell = [o] ++ [91, 94, c, 93, 42, c] := by
    simp [Alts.spell, Sq.spell, upTo, Atom.spell, Quant.spell, Item.spell, QMode.spell]
  have := C50_find_all_partial (.last false (.cons (.chr o) .once (upTo c))) ?_ ?_ ?_ ?_
  · rw [hs] at this
    refine this.congr (fun q x _ => ?_)
    have hp : (Sq.cons (.chr o) .once (upTo c)).picks q x = (Quant.once.counts (runLen (Atom.chr o).set (q.drop x))).flatMap (fun n => (upTo c).picks q (x + n)) := rfl
    simp only [bestAt, Alts.picks, hatPicks, Bool.false_and, Bool.false_eq_true, if_false, hp, untilAt, counts_once, run_one]
    split
    · simp only [List.flatMap_cons, List.flatMap_nil, List.append_nil, upTo_picks]
      split <;> rfl
    · rfl
  · simp [Alts.regular, altOk, Sq.regular, upTo_regular h1 h2 h3, Atom.ok, Atom.steady, ho.1, Quant.sane, Quant.ok, Quant.hi, Quant.lo, pieceOk, Quant.mode,
      Quant.fixed, Sq.eats, Sq.steadyHead]
  · rw [hs]
    intro d hd
    simp only [List.mem_append, List.mem_singleton, List.mem_cons, List.not_mem_nil, or_false] at hd
    rcases hd with rfl | rfl | rfl | rfl | rfl | rfl | rfl
    · exact ho.2
    · decide +kernel
    · decide +kernel
    · exact hcc
    · decide +kernel
    · decide +kernel
    · exact hcc
  · simp [Alts.eats, Alts.list, Sq.eats, Quant.lo]
  · rfl

/-! ## C24 -/

theorem runLen_rest (S : Int → Bool) (l : List Int) : runLen S (l.drop (runLen S l)) = 0 := by
  unfold runLen
  induction l with
  | nil => rfl
  | cons c l ih =>
    by_cases h : S c
    · simp [List.takeWhile_cons, h] at ih ⊢; exact ih
    · simp [List.takeWhile_cons, h]

/-- **C24.** A possessive repetition gives nothing back: `aX` followed by `a` again, where `a` is a character, an escape but `\s`, or a class
without `\s` that is not negated, and `X` is `*+`, `++` or `{n,}+`, is not found in any query. -/
theorem C24_never_gives_back (a : Atom) (ha : a.ok = true) (hst : a.steady = true) (k : Quant) (hs : k.sane = true) (hm : k.mode = .possessive)
    (hk : k.hi = none) (hc : ∀ c ∈ a.spell ++ k.spell ++ a.spell, c ∈ allChars) :
    ∃ t, compile (a.spell ++ k.spell ++ a.spell) = some t ∧ ∀ (cx : Ctx), (∀ c ∈ cx.query, c ∈ allChars) → cx.query.length < 4294967295 →
      ∀ (fuel : Nat), cx.query.length ≤ fuel → ∃ st, construct cx t fuel = .ok st ∧ st.accepted = false := by
  have hspell : (Alts.last false (.cons a k (.cons a .once (.nil false)))).spell = a.spell ++ k.spell ++ a.spell := by
    simp [Alts.spell, Sq.spell, Quant.spell]
  have hreg : (Alts.last false (.cons a k (.cons a .once (.nil false)))).regular = true := by
    have h1 : pieceOk a k (.cons a .once (.nil false)) = true := by unfold pieceOk; rw [hm]
    have h2 : pieceOk a .once (.nil false) = true := by simp [pieceOk, Quant.mode, Quant.fixed]
    have h3 : Quant.once.sane = true := rfl
    simp [Alts.regular, Sq.regular, Sq.loopHead, Sq.firm, ha, hst, hs, hk, h1, h2, h3]
  obtain ⟨t, ht, h⟩ := C48_preferred_partial _ hreg (by rw [hspell]; exact hc)
  rw [hspell] at ht
  refine ⟨t, ht, fun cx hq hl fuel hf => ?_⟩
  obtain ⟨st, h1, h2, _⟩ := h cx hq hl (by simp [Alts.dollar, Sq.dollar]) fuel hf
  refine ⟨st, h1, ?_⟩
  cases hacc : st.accepted with
  | false => rfl
  | true =>
    obtain ⟨s, e, _, hp⟩ := h2 hacc
    have hnone : ∀ x, (Alts.last false (.cons a k (.cons a .once (.nil false)))).picks cx.query x = [] := by
      intro x
      have h1 : k.counts (runLen a.set (cx.query.drop x)) = if k.lo ≤ runLen a.set (cx.query.drop x) then [runLen a.set (cx.query.drop x)] else [] := by
        simp only [Quant.counts, hm, Quant.top, hk]
      simp only [Alts.picks, hatPicks, Bool.false_and, Bool.false_eq_true, if_false, Sq.picks, h1]
      split
      · simp only [List.flatMap_cons, List.flatMap_nil, List.append_nil]
        rw [← List.drop_drop, runLen_rest]
        rfl
      · rfl
    have := hp
    simp [Preferred, hnone] at this

/-! ## the hypotheses are met -/

private def l2 (l : List (Nat × Nat)) : Option (List View × Bool) := some (l.map span, true)
private def all (p q : String) : Option (List View × Bool) := (compile (str p)).bind (fun t => rangeFor (lit q) t q.length q.length (initSt t))

example : (∀ c ∈ str "ana", plainB c = true ∧ c ∈ allChars) ∧ str "ana" ≠ [] ∧ all "ana" "banana ana" = l2 [(1, 4), (7, 10)] := by decide +kernel
example : literalAt (str "ana") (str "banana ana") 3 = some 6 ∧ literalAt (str "ana") (str "banana ana") 4 = none := by decide +kernel
example : let l := [Atom.esc 46, .chr 97, .hex 52 49, .oct 48 53 50, .esc 110]
    l.map Atom.letter = (str ".aA*\n").map some ∧ (∀ a ∈ l, a.ok = true) ∧ l.flatMap Atom.spell = str "\\.a\\x41\\052\\n" ∧
      (∀ c ∈ l.flatMap Atom.spell, c ∈ allChars) ∧ all "\\.a\\x41\\052\\n" "..aA*\n.aA*" = l2 [(1, 6)] := by decide +kernel
example : all "\\101" "bAcA" = l2 [(1, 2), (3, 4)] ∧ all "\\x42" "BAB" = l2 [(0, 1), (2, 3)] := by decide +kernel
example : [124].intercalate [str "in", str "int", str "if"] = str "in|int|if" ∧
    (∀ w ∈ [str "in", str "int", str "if"], w ≠ [] ∧ ∀ c ∈ w, plainB c = true ∧ c ∈ allChars) ∧
    all "in|int|if" "if int" = l2 [(0, 2), (3, 5)] := by decide +kernel
example : let a := Atom.cls false [.rng 97 122, .esc 100] true
    a.ok = true ∧ a.steady = true ∧ a.spell ++ (Quant.plus .greedy).spell = str "[a-z\\d-]+" ∧ (∀ c ∈ str "[a-z\\d-]+", c ∈ allChars) ∧
      all "[a-z\\d-]+" "Ab-1, c" = l2 [(1, 4), (6, 7)] := by decide +kernel
example : let k := Quant.between [50] [51] .greedy
    k.sane = true ∧ k.lo = 2 ∧ k.hi = some 3 ∧ (Atom.esc 100).spell ++ k.spell = str "\\d{2,3}" ∧
      all "\\d{2,3}" "1 22 55555" = l2 [(2, 4), (5, 8), (8, 10)] := by decide +kernel
example : plainB 34 = true ∧ classB 34 = true ∧ ascii 34 = true ∧ (34 : Int) ∈ allChars ∧ [34] ++ [91, 94, 34, 93, 42, 34] = str "\"[^\"]*\"" ∧
    all "\"[^\"]*\"" "say \"a\" or \"\" \"" = l2 [(4, 7), (11, 13)] := by decide +kernel

example : (Atom.esc 100).ok = true ∧ (Atom.esc 100).steady = true ∧ (Quant.plus .possessive).sane = true ∧
    (Atom.esc 100).spell ++ (Quant.plus .possessive).spell ++ (Atom.esc 100).spell = str "\\d++\\d" ∧ m "\\d++\\d" "a123" = none ∧
    m "\\d+\\d" "a123" = some [some "123"] := by decide +kernel

end ERegex.Props

import Verif.Proofs.Class
import Verif.Props.Leftmost
/-!
# C26, C27 : character classes

`a.spell` is the text of the pattern, `listed items dash c`, `escape e c` (Spec/Syntax.lean) say which characters it lists.
`run cx t [] st` is one attempt of the compiled regex `t` at the position of `st`; `construct` is the first match of a query,
`next` the following ones.
-/
set_option autoImplicit false
namespace ERegex.Props
open ERegex ERegex.Spec
open ERegex.Conformance (lit m)

/-- Every attempt of the regex, at every position of every query, accepts exactly one character, and exactly when it is in `S`. -/
def MatchesOne (t : Node) (S : Int → Bool) : Prop := ∀ (cx : Ctx) (st : St), 0 ≤ st.pos → ∃ st', run cx t [] st = some st' ∧
  (st'.accepted = true ↔ ∃ c, cx.query[st.pos.toNat]? = some c ∧ S c = true) ∧
  (st'.accepted = true → st'.pos = st.pos + 1)

/-- `v` is the first character of `q` in `S` at or after `i`, or nothing when there is none. -/
def FirstOf (q : List Int) (S : Int → Bool) (i : Nat) (v : View) : Prop :=
  (v = none ∧ ∀ x c, i ≤ x → q[x]? = some c → S c = false) ∨
  (∃ (s : Nat) (c : Int), v = some ((s : Int), (s : Int) + 1) ∧ i ≤ s ∧ q[s]? = some c ∧ S c = true ∧
    ∀ x c, i ≤ x → x < s → q[x]? = some c → S c = false)

/-- The first match is the first character in `S`, and every `next()` moves to the next one. -/
def FindsOne (t : Node) (S : Int → Bool) : Prop := ∀ (cx : Ctx) (fuel : Nat), cx.query.length < 4294967295 → cx.query.length ≤ fuel →
  (∃ st, construct cx t fuel = .ok st ∧ FirstOf cx.query S 0 (toView st)) ∧
  (∀ st, Reach cx t st → ∀ f i : Nat, toView st = some ((f : Int), (i : Int)) →
    ∃ st', next cx t fuel st = .ok st' ∧ FirstOf cx.query S i (toView st'))

/-- Every match that is ever reported is one character of `S`. -/
def ReportsOne (t : Node) (S : Int → Bool) : Prop := ∀ (cx : Ctx) (st : St), Reach cx t st → ∀ v, toView st = some v →
  ∃ (i : Nat) (c : Int), v = ((i : Int), (i : Int) + 1) ∧ cx.query[i]? = some c ∧ S c = true

theorem matchesOne_of {t : Node} {S : Int → Bool} (hc : ClassOf t S) (h : oneCh t = true) : MatchesOne t S := by
  have hS : testOf t = S := classOf_unique (classOf_oneCh h) hc
  intro cx st h0
  have hq : (∃ c, cx.query[st.pos.toNat]? = some c ∧ S c = true) → st.pos < cx.qend := by
    rintro ⟨c, hc, _⟩
    have := (List.getElem?_eq_some_iff.1 hc).1
    simp only [Ctx.qend]; omega
  simp only [oneCh, Bool.or_eq_true] at h
  rcases Int.lt_or_le st.pos cx.qend with hp | hp
  · obtain ⟨c, hr, hc⟩ := read_some cx st.pos h0 hp
    have hcc : (∃ c, cx.query[st.pos.toNat]? = some c ∧ S c = true) ↔ S c = true := by
      rw [hc]; simp
    rw [hcc]
    rcases h with h | h
    · rw [run_single cx t h, charStep_read hp hr, hS]
      refine ⟨_, rfl, ?_⟩
      cases S c <;> simp
    · rw [run_skipping cx t h]
      have : ¬ st.pos ≥ cx.qend := by omega
      simp only [skipStep, this, if_false, hr, hS]
      exact ⟨_, rfl, Iff.rfl, fun _ => rfl⟩
  · have hno : ¬ ∃ c, cx.query[st.pos.toNat]? = some c ∧ S c = true := fun hx => by have := hq hx; omega
    refine ⟨{ st with accepted := false }, ?_, by simp [hno], by simp⟩
    rcases h with h | h
    · rw [run_single cx t h, charStep_end hp]
    · rw [run_skipping cx t h]; simp [skipStep, hp]

theorem findsTree_single {t : Node} (h : single t = true) (nul e : Bool) : findsTree nul e t = true := by
  obtain ⟨a, b, c, d⟩ := single_conds nul e true t h false true true .univ false
  simp [findsTree, a, b, c, skipOk, startClean_of_clean t d]

theorem firstOf_intro {cx : Ctx} {S : Int → Bool} {b : Node} (hb : ClassOf b S) {i : Nat} {st : St}
    (h1 : st.accepted = true → ∃ s j : Nat, toView st = some ((s : Int), (j : Int)) ∧ Den cx.query (toRx b) s j ∧
      FirstStart cx.query (toRx b) i s)
    (h2 : (∃ x j, i ≤ x ∧ x < cx.query.length ∧ Den cx.query (toRx b) x j) → st.accepted = true) :
    FirstOf cx.query S i (toView st) := by
  cases ha : st.accepted with
  | false =>
    refine Or.inl ⟨by simp [toView, ha], fun x c hx hc => ?_⟩
    cases hS : S c with
    | false => rfl
    | true =>
      have := h2 ⟨x, x + 1, hx, (List.getElem?_eq_some_iff.1 hc).1, (hb _ _ _).2 ⟨rfl, c, hc, hS⟩⟩
      rw [ha] at this; simp at this
  | true =>
    obtain ⟨s, j, hv, hd, hle, _, hmin⟩ := h1 ha
    obtain ⟨rfl, c, hc, hS⟩ := (hb _ _ _).1 hd
    refine Or.inr ⟨s, c, by rw [hv]; simp, hle, hc, hS, fun x c' hx hlt hc' => ?_⟩
    cases hS' : S c' with
    | false => rfl
    | true =>
      have := hmin x (x + 1) hx ((hb _ _ _).2 ⟨rfl, c', hc', hS'⟩)
      omega

theorem findsOne_of {p : List Int} {b t : Node} {S : Int → Bool} (hb : build p = some b) (ht : compile p = some t) (hc : ClassOf b S)
    (h : single t = true) : FindsOne t S := by
  intro cx fuel hlen hfuel
  have hf := findsTree_single h false true
  refine ⟨?_, fun st hr f i hv => ?_⟩
  · obtain ⟨st, e1, h1, h2⟩ := C30_leftmost_partial p b t hb ht false true hf cx (by simp) (by simp) hlen fuel hfuel
    exact ⟨st, e1, firstOf_intro hc h1 (fun ⟨x, j, _, hx, hd⟩ => h2 ⟨x, j, Or.inr hx, hd⟩)⟩
  · obtain ⟨st', e1, h1, h2⟩ := C30_next_partial p b t hb ht false true hf cx (by simp) (by simp) hlen fuel hfuel st hr f i hv
    exact ⟨st', e1, firstOf_intro hc h1 (fun ⟨x, j, hx, hx2, hd⟩ => h2 ⟨x, j, hx, hx2, hd⟩)⟩

theorem reportsOne_of {p : List Int} {b t : Node} {S : Int → Bool} (hb : build p = some b) (ht : compile p = some t) (hc : ClassOf b S)
    (h : oneCh t = true) : ReportsOne t S := by
  intro cx st hr v hv
  have hs : safe false t = true ∧ snd false true t = true := by
    simp only [oneCh, Bool.or_eq_true] at h
    rcases h with h | h
    · have := single_conds false true true t h false true true .univ false
      exact ⟨this.1, this.2.1⟩
    · exact skipping_conds false true t h false
  have ha : st.accepted = true := by
    cases ha : st.accepted with
    | true => rfl
    | false => simp [toView, ha] at hv
  obtain ⟨i, j, h1, h2⟩ := C20_accepted_in_language_partial p b t hb ht false hs.1 hs.2 cx (by simp) st hr ha
  obtain ⟨rfl, c, h3, h4⟩ := (hc _ _ _).1 h2
  rw [hv] at h1
  simp only [Option.some.injEq] at h1
  exact ⟨i, c, by rw [h1]; simp, h3, h4⟩

/-- The compiled regex of a one-character pattern. -/
theorem atom_compile (a : Atom) (hok : a.ok = true) (S : Int → Bool) (hS : a.sem = .cls S) (h : (a.steady || a.skips) = true) :
    ∃ t, compile a.spell = some t ∧ MatchesOne t S ∧ ReportsOne t S ∧ (a.steady = true → FindsOne t S) := by
  have hg : ∀ c as, a ≠ .group c as := by rintro c as rfl; simp [Atom.steady, Atom.skips] at h
  obtain ⟨b, hb, h1, h2⟩ := atom_shape a hok hg
  obtain ⟨b', hb', hs⟩ := build_syntax (atomAlts a) (atomAlts_ok a hok)
  rw [atomAlts_spell, hb] at hb'
  simp only [Option.some.injEq] at hb'
  subst hb'
  have hc : ClassOf b S := by
    intro q i j
    rw [hs q i j]
    simp only [atomAlts, Alts.sem, Sq.sem, Quant.sem, hS]
    rw [if_neg (by simp), if_neg (by simp)]
    rw [same_seq_eps _ q i j]
    simp only [Den]
  obtain ⟨t, ht⟩ := optimize_some b
  obtain ⟨k, hk⟩ := optimize_rounds ht
  have ht' : compile a.spell = some t := by simp [compile, hb, ht]
  have hct : ClassOf t S := by
    subst hk
    intro q i j
    rw [rounds_same k b q i j]; exact hc q i j
  have hone : oneCh t = true := by
    subst hk
    simp only [oneCh, Bool.or_eq_true] at h ⊢
    rcases h with h | h
    · exact Or.inl (rounds_single k b (h1 h))
    · exact Or.inr (rounds_skipping k b (h2 h))
  refine ⟨t, ht', matchesOne_of hct hone, reportsOne_of hb ht' hc hone, fun hst => ?_⟩
  subst hk
  exact findsOne_of hb ht' hc (rounds_single k b (h1 hst))

/-! ## C26 -/

/-- The class lists `\s`. -/
def listsSpace (items : List Item) : Bool := items.any (fun i => match i with | .esc c => c == 115 | _ => false)

theorem listsSpace_steady (items : List Item) (h : listsSpace items = false) : items.all Item.steady = true := by
  simp only [listsSpace, List.any_eq_false] at h
  simp only [List.all_eq_true]
  intro i hi
  have := h i hi
  cases i <;> simp_all [Item.steady]

/-- **C26 (partial).** Every class `[…]` that does not list `\s` compiles; an attempt at any position of any query accepts exactly
one character, exactly when it is listed; the search finds the first listed character, and `next()` the following ones, each
exactly once.  Missing: classes with `\s` (`C26_last_space_partial`, refutations below). -/
theorem C26_class_partial (items : List Item) (dash : Bool) (hok : (Atom.cls false items dash).ok = true)
    (hs : listsSpace items = false) : ∃ t, compile (Atom.cls false items dash).spell = some t ∧
      MatchesOne t (listed items dash) ∧ ReportsOne t (listed items dash) ∧ FindsOne t (listed items dash) := by
  have hst : (Atom.cls false items dash).steady = true := by simp [Atom.steady, listsSpace_steady items hs]
  obtain ⟨t, h1, h2, h3, h4⟩ := atom_compile _ hok (listed items dash) (by simp [Atom.sem]) (by simp [hst])
  exact ⟨t, h1, h2, h3, h4 hst⟩

/-- **C26 (partial).** Every negated class `[^…]` that does not list `\s` compiles; an attempt at any position of any query accepts
exactly one character, exactly when it is not listed; only such characters are ever reported.  Missing: the search finds the
*first* one (false, `C26_negated_search_refuted`); classes with `\s`. -/
theorem C26_negated_partial (items : List Item) (dash : Bool) (hok : (Atom.cls true items dash).ok = true)
    (hs : listsSpace items = false) : ∃ t, compile (Atom.cls true items dash).spell = some t ∧
      MatchesOne t (fun c => !listed items dash c) ∧ ReportsOne t (fun c => !listed items dash c) := by
  have hst : (Atom.cls true items dash).skips = true := by simp [Atom.skips, listsSpace_steady items hs]
  obtain ⟨t, h1, h2, h3, _⟩ := atom_compile _ hok (fun c => !listed items dash c) (by simp [Atom.sem]) (by simp [hst])
  exact ⟨t, h1, h2, h3⟩

/-- **C26 (partial).** A class with `\s` as the last item, and nowhere else, also accepts exactly one listed character per attempt. -/
theorem C26_last_space_partial (items : List Item) (hok : items.all Item.ok = true) (hs : listsSpace items = false) :
    ∃ t, compile (Atom.cls false (items ++ [.esc 115]) false).spell = some t ∧
      MatchesOne t (listed (items ++ [.esc 115]) false) ∧ ReportsOne t (listed (items ++ [.esc 115]) false) := by
  have hst : (Atom.cls false (items ++ [.esc 115]) false).skips = true := by
    simp only [Atom.skips, List.dropLast_concat, listsSpace_steady items hs]
    simp [Item.steady]
  obtain ⟨t, h1, h2, h3, _⟩ := atom_compile (.cls false (items ++ [.esc 115]) false) (by simp [Atom.ok, hok, Item.ok, escB])
    (listed (items ++ [.esc 115]) false) (by simp [Atom.sem]) (by simp [hst])
  exact ⟨t, h1, h2, h3⟩

/-- `[a-fh\-_]` -/
def sampleClass : List Item := [.rng 97 102, .chr 104, .esc 45, .chr 95]

example : (Atom.cls false sampleClass false).ok = true ∧ listsSpace sampleClass = false ∧
    (Atom.cls false sampleClass false).spell = str "[a-fh\\-_]" ∧ (Atom.cls true sampleClass true).spell = str "[^a-fh\\-_-]" ∧
    (Atom.cls true sampleClass true).ok = true ∧ (Atom.cls false (sampleClass ++ [.esc 115]) false).spell = str "[a-fh\\-_\\s]" := by
  decide
example : listed sampleClass false 101 = true ∧ listed sampleClass false 103 = false ∧ listed sampleClass false 45 = true := by decide
example : m "[a-fh\\-_]" "xyzg-b" = some [some "-"] := by decide +kernel
example : m "[^a-fh\\-_-]" "g" = some [some "g"] := by decide +kernel

/-- **C26, refuted.** `\s` before another item: it moves on when it fails, and the next item looks at the following character, so
`[\sa]` reports the two characters `xa`. -/
theorem C26_space_first_refuted : AcceptsOutside "[\\sa]" "xa" "xa" := acceptsOutside_of (by decide +kernel)
/-- **C26, refuted.** The search for a negated class or for a class ending in `\s` skips every second candidate. -/
theorem C26_negated_search_refuted : MissesLeftmost "[^,]" ",,a" 2 ∧ MissesLeftmost "[a\\s]" "xxa" 2 :=
  ⟨missesLeftmost_of (by decide +kernel), missesLeftmost_of (by decide +kernel)⟩
/-- **C26, refuted.** `\s` in a negated class: the failed `\s` has moved on, and one more character is skipped. -/
theorem C26_negated_space_refuted : ∃ s, m "[^\\s]" "ab" = some [some s] ∧ s ≠ "a" ∧ s ≠ "b" := ⟨"ab", by decide +kernel⟩

/-! ## C27 -/

/-- **C27.** `\d`: exactly one ASCII digit; the search finds the first one and `next()` the following ones. -/
theorem C27_digit : ∃ t, compile (str "\\d") = some t ∧
    MatchesOne t (fun c => decide (48 ≤ c) && decide (c ≤ 57)) ∧ FindsOne t (fun c => decide (48 ≤ c) && decide (c ≤ 57)) := by
  obtain ⟨t, h1, h2, _, h4⟩ := atom_compile (.esc 100) (by decide) (escape 100) rfl (by decide)
  have e : escape 100 = fun c => decide (48 ≤ c) && decide (c ≤ 57) := by funext c; simp [escape]
  rw [e] at h2 h4
  exact ⟨t, h1, h2, h4 (by decide)⟩

/-- **C27.** `\w`: exactly one letter, digit or underscore. -/
theorem C27_word : ∃ t, compile (str "\\w") = some t ∧ MatchesOne t (escape 119) ∧ FindsOne t (escape 119) := by
  obtain ⟨t, h1, h2, _, h4⟩ := atom_compile (.esc 119) (by decide) (escape 119) rfl (by decide)
  exact ⟨t, h1, h2, h4 (by decide)⟩

/-- **C27.** `.`: exactly one character other than newline. -/
theorem C27_any : ∃ t, compile (str ".") = some t ∧ MatchesOne t (fun c => c != 10) ∧ FindsOne t (fun c => c != 10) := by
  obtain ⟨t, h1, h2, _, h4⟩ := atom_compile .dot rfl (fun c => c != 10) rfl (by decide)
  exact ⟨t, h1, h2, h4 (by decide)⟩

/-- **C27.** `\s`: an attempt accepts exactly one of tab, newline, form feed, carriage return, space, and only these are ever
reported.  Missing: the search finds the first one, which is false (`C27_space_search_refuted`). -/
theorem C27_space_partial : ∃ t, compile (str "\\s") = some t ∧ MatchesOne t (fun c => [9, 10, 12, 13, 32].contains c) ∧
    ReportsOne t (fun c => [9, 10, 12, 13, 32].contains c) := by
  obtain ⟨t, h1, h2, h3, _⟩ := atom_compile (.esc 115) (by decide) (escape 115) rfl (by decide)
  have e : escape 115 = fun c => [9, 10, 12, 13, 32].contains c := by
    funext c
    rw [Bool.eq_iff_iff]
    simp [escape, or_assoc]
  rw [e] at h2 h3
  exact ⟨t, h1, h2, h3⟩

/-- **C27.** An escaped character that is not a letter with a meaning of its own and not a digit matches itself, exactly once. -/
theorem C27_escaped (c : Int) (h : escB c = true) (hc : [97, 100, 101, 102, 110, 114, 115, 116, 119].contains c = false) :
    ∃ t, compile [92, c] = some t ∧ MatchesOne t (fun x => x == c) ∧ FindsOne t (fun x => x == c) := by
  have hn : c ≠ 115 := by rintro rfl; simp at hc
  obtain ⟨t, h1, h2, _, h4⟩ := atom_compile (.esc c) h (escape c) rfl (by simp [Atom.steady, hn])
  have e : escape c = fun x => x == c := by
    funext x
    simp at hc
    unfold escape
    simp [hc]
  rw [e] at h2 h4
  exact ⟨t, h1, h2, h4 (by simp [Atom.steady, hn])⟩

/-- **C27.** The control escapes `\a \e \f \n \r \t` match their control character. -/
theorem C27_control (c v : Int) (h : (c, v) ∈ [((97 : Int), (7 : Int)), (101, 27), (102, 12), (110, 10), (114, 13), (116, 9)]) :
    ∃ t, compile [92, c] = some t ∧ MatchesOne t (fun x => x == v) ∧ FindsOne t (fun x => x == v) := by
  simp only [List.mem_cons, List.not_mem_nil, or_false, Prod.mk.injEq] at h
  have key : ∀ c v : Int, escB c = true → c ≠ 115 → escape c = (fun x => x == v) →
      ∃ t, compile [92, c] = some t ∧ MatchesOne t (fun x => x == v) ∧ FindsOne t (fun x => x == v) := by
    intro c v h hn e
    obtain ⟨t, h1, h2, _, h4⟩ := atom_compile (.esc c) h (escape c) rfl (by simp [Atom.steady, hn])
    rw [e] at h2 h4
    exact ⟨t, h1, h2, h4 (by simp [Atom.steady, hn])⟩
  rcases h with ⟨rfl, rfl⟩ | ⟨rfl, rfl⟩ | ⟨rfl, rfl⟩ | ⟨rfl, rfl⟩ | ⟨rfl, rfl⟩ | ⟨rfl, rfl⟩ <;>
    exact key _ _ (by decide) (by decide) (by funext x; simp [escape])

/-- **C27.** A character without special meaning matches itself. -/
theorem C27_plain (c : Int) (h : plainB c = true) :
    ∃ t, compile [c] = some t ∧ MatchesOne t (fun x => x == c) ∧ FindsOne t (fun x => x == c) := by
  obtain ⟨t, h1, h2, _, h4⟩ := atom_compile (.chr c) h (fun x => x == c) rfl rfl
  exact ⟨t, h1, h2, h4 rfl⟩

-- every operator can be escaped
example : "\\{}()[]*+?$^.|-/".toList.all (fun c => escB c.toNat && !([97, 100, 101, 102, 110, 114, 115, 116, 119] : List Int).contains c.toNat) =
    true := by decide
example : m "\\." "ab.c" = some [some "."] ∧ m "\\w" "-+_" = some [some "_"] ∧ m "." "\nx" = some [some "x"] ∧
    m "\\d" "a7" = some [some "7"] ∧ m "\\s" " " = some [some " "] ∧ m "\\t" "x\ty" = some [some "\t"] := by decide +kernel

/-- **C27, refuted.** The search for `\s` skips every second candidate. -/
theorem C27_space_search_refuted : MissesLeftmost "\\s" "xx y" 2 := missesLeftmost_of (by decide +kernel)
/-- **C27, refuted.** `\D`, `\W`, `\S` do not compile (the library refers to templates that do not exist). -/
theorem C27_complement_refuted : build (str "\\D") = none ∧ build (str "\\W") = none ∧ build (str "\\S") = none := by decide +kernel

end ERegex.Props

import Verif.Props.FindAll
/-!
# C55 : checking a whole query with `^…$`
-/
set_option autoImplicit false
namespace ERegex.Props
open ERegex ERegex.Spec
open ERegex.Conformance (lit m)

/-- Offset `e` of `q` is the end of the query, or a newline is there. -/
def LineEnd (q : List Int) (e : Nat) : Prop := e = q.length ∨ q[e]? = some 10

/-- The sequence followed by `$`. -/
def withDollar : Sq → Sq
  | .nil _ => .nil true
  | .cons a k s => .cons a k (withDollar s)

theorem dollar_picks (q : List Int) : ∀ (s : Sq), s.dollar = false → ∀ i, (withDollar s).picks q i ≠ [] ↔ ∃ e ∈ s.picks q i, LineEnd q e
  | .nil true, h, _ => by simp [Sq.dollar] at h
  | .nil false, _, i => by
    simp only [withDollar, Sq.picks, LineEnd, List.mem_singleton, exists_eq_left]
    split
    · simp_all
    · split <;> simp_all
  | .cons a k s, h, i => by
    have ih := dollar_picks q s h
    simp only [withDollar, Sq.picks, ne_eq, List.flatMap_eq_nil_iff, List.mem_flatMap]
    constructor
    · intro hn
      have : ∃ n, n ∈ k.counts (runLen a.set (q.drop i)) ∧ (withDollar s).picks q (i + n) ≠ [] := by
        simpa using hn
      obtain ⟨n, h1, h2⟩ := this
      obtain ⟨e, h3, h4⟩ := (ih _).1 h2
      exact ⟨e, ⟨n, h1, h3⟩, h4⟩
    · rintro ⟨e, ⟨n, h1, h2⟩, h3⟩ hn
      exact (ih _).2 ⟨e, h2, h3⟩ (hn n h1)

theorem withDollar_spell : ∀ (s : Sq), s.dollar = false → (withDollar s).spell = s.spell ++ [36]
  | .nil true, h => by simp [Sq.dollar] at h
  | .nil false, _ => by simp [withDollar, Sq.spell]
  | .cons a k s, h => by simp [withDollar, Sq.spell, withDollar_spell s h]

theorem withDollar_dollar : ∀ (s : Sq), (withDollar s).dollar = true
  | .nil _ => rfl
  | .cons _ _ s => withDollar_dollar s

/-- **C55 (partial).** Checking a whole query: for every sequence `s` such that `^s$` is regular (see C48), and every query (of `char` values,
shorter than 2^32-1, followed by a NUL): `^s$` accepts the query if and only if `s` can match from its beginning to its end, or to a
newline.  Missing: groups, and patterns that are not regular. -/
theorem C55_whole_query_partial (s : Sq) (hd : s.dollar = false) (hr : (Alts.last true (withDollar s)).regular = true)
    (hc : ∀ c ∈ [94] ++ s.spell ++ [36], c ∈ allChars) :
    ∃ t, compile ([94] ++ s.spell ++ [36]) = some t ∧ ∀ (cx : Ctx), (∀ c ∈ cx.query, c ∈ allChars) → cx.query.length < 4294967295 → cx.post.head? = some 0 →
      ∀ (fuel : Nat), cx.query.length ≤ fuel → ∃ st, construct cx t fuel = .ok st ∧
        (st.accepted = true ↔ ∃ e ∈ s.picks cx.query 0, LineEnd cx.query e) := by
  have hs : (Alts.last true (withDollar s)).spell = [94] ++ s.spell ++ [36] := by
    simp [Alts.spell, withDollar_spell s hd]
  obtain ⟨t, ht, h⟩ := C48_preferred_partial (.last true (withDollar s)) hr (by rw [hs]; exact hc)
  rw [hs] at ht
  refine ⟨t, ht, fun cx hq hlen hn fuel hfuel => ?_⟩
  obtain ⟨st, e1, e2, e3⟩ := h cx hq hlen (fun _ => hn) fuel hfuel
  refine ⟨st, e1, ?_⟩
  rw [← dollar_picks cx.query s hd 0]
  constructor
  · intro ha
    obtain ⟨x, e, _, _, h3, _⟩ := e2 ha
    simp only [Alts.picks, hatPicks] at h3
    split at h3
    · simp at h3
    · rename_i hx
      have : x = 0 := by simpa using hx
      subst this
      intro hnil
      rw [hnil] at h3; simp at h3
  · intro hne
    cases ha : st.accepted with
    | true => rfl
    | false =>
      have := e3 ha 0 (Or.inl rfl)
      simp only [Alts.picks, hatPicks, bne_self_eq_false, Bool.and_false, Bool.false_eq_true, if_false] at this
      exact absurd this hne

/-- **C55 (partial).** With groups, under the condition of C49: `^s$` accepts if and only if there is a way to match from the beginning, and then
reports the captures of the best one. -/
theorem C55_whole_query_groups_partial (s : Sq) (hr : (Alts.last true s).capRegular = true) (hc : ∀ c ∈ (Alts.last true s).spell, c ∈ allChars) :
    ∃ t, compile (Alts.last true s).spell = some t ∧
      ∀ (cx : Ctx), (∀ c ∈ cx.query, c ∈ allChars) → cx.query.length < 4294967295 → (s.dollar = true → cx.post.head? = some 0) →
        ∀ (fuel : Nat), cx.query.length ≤ fuel → ∃ st, construct cx t fuel = .ok st ∧
          match (s.ways cx.query 0 0 noCaps).head? with
          | none => st.accepted = false
          | some w => st.accepted = true ∧ Reports (.last true s) st 0 w := by
  obtain ⟨t, ht, h⟩ := C49_captures_partial (.last true s) hr hc
  refine ⟨t, ht, fun cx hq hlen hn fuel hfuel => ?_⟩
  obtain ⟨st, e1, e2, e3⟩ := h cx hq hlen hn fuel hfuel
  refine ⟨st, e1, ?_⟩
  have h0 : (Alts.last true s).ways cx.query 0 0 noCaps = s.ways cx.query 0 0 noCaps := by simp [Alts.ways]
  rw [← h0]
  cases ha : st.accepted with
  | true =>
    obtain ⟨x, w, h1, _, h3, _⟩ := e2 ha
    have : x = 0 := by
      simp only [Alts.ways] at h3
      split at h3
      · simp at h3
      · rename_i hx; simpa using hx
    subst this
    rw [h3]
    exact ⟨rfl, h1⟩
  | false =>
    rw [e3 ha 0 (Or.inl rfl)]
    rfl

/-! ## an application -/

private def sq (l : List (Atom × Quant)) : Sq := l.foldr (fun x s => .cons x.1 x.2 s) (.nil false)

/-- `\d{4}-\d{2}-\d{2}` -/
def dateBody : Sq := sq [(.esc 100, .exact [52] .greedy), (.chr 45, .once), (.esc 100, .exact [50] .greedy), (.chr 45, .once), (.esc 100, .exact [50] .greedy)]
example : dateBody.dollar = false ∧ (Alts.last true (withDollar dateBody)).regular = true ∧
    [94] ++ dateBody.spell ++ [36] = str "^\\d{4}-\\d{2}-\\d{2}$" ∧ ∀ c ∈ [94] ++ dateBody.spell ++ [36], c ∈ allChars := by decide +kernel
example : dateBody.picks (str "2024-05-17") 0 = [10] ∧ m "^\\d{4}-\\d{2}-\\d{2}$" "2024-05-17" = some [some "2024-05-17"] ∧
    m "^\\d{4}-\\d{2}-\\d{2}$" "2024-05-1" = none ∧ m "^\\d{4}-\\d{2}-\\d{2}$" "2024-05-177" = none := by decide +kernel

/-- The pattern `^\d+$` accepts exactly the queries that begin with a line of digits. -/
theorem C55_all_digits : ∃ t, compile (str "^\\d+$") = some t ∧ ∀ (cx : Ctx), (∀ c ∈ cx.query, c ∈ allChars) → cx.query.length < 4294967295 →
    cx.post.head? = some 0 → ∀ (fuel : Nat), cx.query.length ≤ fuel → ∃ st, construct cx t fuel = .ok st ∧
      (st.accepted = true ↔ ∃ e, 0 < e ∧ e ≤ cx.query.length ∧ (∀ x c, x < e → cx.query[x]? = some c → 48 ≤ c ∧ c ≤ 57) ∧ LineEnd cx.query e) := by
  obtain ⟨t, ht, h⟩ := C55_whole_query_partial (sq [(.esc 100, .plus .greedy)]) rfl (by decide +kernel) (by decide +kernel)
  have hset : ∀ c, (Atom.esc 100).set c = true ↔ 48 ≤ c ∧ c ≤ 57 := fun c => by simp [Atom.set, escape]
  refine ⟨t, by rw [← ht]; decide +kernel, fun cx hq hlen hn fuel hfuel => ?_⟩
  obtain ⟨st, e1, e2⟩ := h cx hq hlen hn fuel hfuel
  refine ⟨st, e1, e2.trans ?_⟩
  have hp : ∀ e, e ∈ (sq [(.esc 100, .plus .greedy)]).picks cx.query 0 ↔ 1 ≤ e ∧ e ≤ runLen (Atom.esc 100).set (cx.query.drop 0) := by
    intro e
    simp only [sq, List.foldr_cons, List.foldr_nil, Sq.picks, List.mem_flatMap, List.mem_singleton, Nat.zero_add]
    constructor
    · rintro ⟨n, hn, rfl⟩
      have := counts_sub _ _ _ hn
      exact ⟨this.1.1, this.2⟩
    · rintro ⟨h1, h2⟩
      exact ⟨e, (mem_greedy _ _ _ (by simp [Quant.mode])).2 ⟨⟨h1, by simp [Quant.hi]⟩, h2⟩, rfl⟩
  constructor
  · rintro ⟨e, he, hl⟩
    obtain ⟨h1, h2⟩ := (hp e).1 he
    have hle := runLen_le cx.query (Atom.esc 100).set 0 (Nat.zero_le _)
    exact ⟨e, h1, by omega, fun x c hx hc => (hset c).1 (run_all h2 (Nat.zero_le x) (by omega) hc), hl⟩
  · rintro ⟨e, h1, h2, h3, h4⟩
    refine ⟨e, (hp e).2 ⟨h1, ?_⟩, h4⟩
    rw [← inClass_runLen]
    intro k hk
    have hk' : k < cx.query.length := by omega
    exact ⟨cx.query[k], by simpa using List.getElem?_eq_getElem hk', (hset _).2 (h3 k _ hk (List.getElem?_eq_getElem hk'))⟩

/-! ## where it goes wrong -/

/-- **C55 is false of `(?:(a)(b))+`**: the query `aba` is not one or more `ab`, and `^(?:(a)(b))+$` accepts it. -/
theorem C55_refuted_accepts : (build (str "(?:(a)(b))+")).map (fun b => ends (str "aba") (toRx b) 0) = some [2] ∧
    m "^(?:(a)(b))+$" "aba" = some [some "aba", some "a", some "b"] := by decide +kernel

/-- **C55 is false of `(?:a*)ab`**: the query `aab` is some `a` and `ab`, and `^(?:a*)ab$` rejects it. -/
theorem C55_refuted_rejects : (build (str "(?:a*)ab")).map (fun b => ends (str "aab") (toRx b) 0) = some [3] ∧
    m "^(?:a*)ab$" "aab" = none := by decide +kernel

end ERegex.Props

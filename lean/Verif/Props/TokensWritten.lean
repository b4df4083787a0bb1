import Verif.Props.Tokens
import Verif.Props.Written
/-!
# C38, C40, C42, C61 : the tokenizer, with conditions that can be read off the definitions as written

Definitions are abstract patterns (Spec/Syntax.lean) that do not begin with `^`; the library puts a `^` in front of them.
-/
set_option autoImplicit false
namespace ERegex.Props
open ERegex ERegex.Spec
open ERegex.Conformance (lit m)

/-- Does not begin with `^`. -/
def hatless : Alts → Bool
  | .last hat _ => !hat
  | .more hat _ _ => !hat

/-- With `^` in front. -/
def hatted : Alts → Alts
  | .last _ s => .last true s
  | .more _ s as => .more true s as

/-- The definition as text. -/
def defText : (Nat × Alts) ⊕ Alts → Nat × List Int ⊕ List Int
  | .inl (ty, as) => .inl (ty, as.spell)
  | .inr as => .inr as.spell

/-- The pattern of a definition. -/
def defAlts : (Nat × Alts) ⊕ Alts → Alts
  | .inl (_, as) => as
  | .inr as => as

theorem hatted_spell {as : Alts} (h : hatless as = true) : str "^" ++ as.spell = (hatted as).spell := by
  cases as <;> simp [hatless] at h <;> subst h <;> simp [hatted, Alts.spell] <;> rfl

theorem hatted_ok {as : Alts} (h : as.ok = true) : (hatted as).ok = true := by
  cases as <;> simp [hatted, Alts.ok] at h ⊢ <;> simp [h]

theorem hatted_tame {as : Alts} {d sp : Bool} {w : Nat} : (hatted as).tame d sp w = as.tame d sp w := by
  cases as <;> simp [hatted, Alts.tame]

/-- What each compiled definition comes from. -/
theorem defs_compile : ∀ (ds : List ((Nat × Alts) ⊕ Alts)), (∀ x ∈ ds, hatless (defAlts x) = true ∧ (defAlts x).ok = true) →
    ∃ d, splitDefs (ds.map defText) = some d ∧
      (∀ x ∈ d.tokens, ∃ as, Sum.inl (x.1, as) ∈ ds ∧ compile (hatted as).spell = some x.2) ∧
      (∀ t ∈ d.seps, ∃ as, Sum.inr as ∈ ds ∧ compile (hatted as).spell = some t)
  | [], _ => ⟨_, rfl, by simp, by simp⟩
  | .inl (ty, as) :: ds, h => by
    obtain ⟨d, h1, h2, h3⟩ := defs_compile ds (fun x hx => h x (by simp [hx]))
    obtain ⟨h4, h5⟩ := h (.inl (ty, as)) (by simp)
    simp only [defAlts] at h4 h5
    obtain ⟨t, ht, _⟩ := compile_tame (hatted_ok h5)
    refine ⟨{ d with tokens := (ty, t) :: d.tokens }, ?_, ?_, ?_⟩
    · simp [splitDefs, defText, hatted_spell h4, ht, h1]
    · intro x hx
      rcases List.mem_cons.1 hx with rfl | hx
      · exact ⟨as, by simp, ht⟩
      · obtain ⟨a, ha, hc⟩ := h2 x hx
        exact ⟨a, by simp [ha], hc⟩
    · intro x hx
      obtain ⟨a, ha, hc⟩ := h3 x hx
      exact ⟨a, by simp [ha], hc⟩
  | .inr as :: ds, h => by
    obtain ⟨d, h1, h2, h3⟩ := defs_compile ds (fun x hx => h x (by simp [hx]))
    obtain ⟨h4, h5⟩ := h (.inr as) (by simp)
    simp only [defAlts] at h4 h5
    obtain ⟨t, ht, _⟩ := compile_tame (hatted_ok h5)
    refine ⟨{ d with seps := t :: d.seps }, ?_, ?_, ?_⟩
    · simp [splitDefs, defText, hatted_spell h4, ht, h1]
    · intro x hx
      obtain ⟨a, ha, hc⟩ := h2 x hx
      exact ⟨a, by simp [ha], hc⟩
    · intro x hx
      rcases List.mem_cons.1 hx with rfl | hx
      · exact ⟨as, by simp, ht⟩
      · obtain ⟨a, ha, hc⟩ := h3 x hx
        exact ⟨a, by simp [ha], hc⟩

theorem defs_safe {ds : List ((Nat × Alts) ⊕ Alts)} {nul : Bool} (h : ∀ x ∈ ds, hatless (defAlts x) = true ∧ (defAlts x).ok = true)
    (ht : ∀ x ∈ ds, (defAlts x).tame nul false 1 = true) {d : TokDefs}
    (h1 : ∀ x ∈ d.tokens, ∃ as, Sum.inl (x.1, as) ∈ ds ∧ compile (hatted as).spell = some x.2)
    (h2 : ∀ t ∈ d.seps, ∃ as, Sum.inr as ∈ ds ∧ compile (hatted as).spell = some t) (cx : Ctx)
    (hnul : nul = true → cx.post.head? = some 0) : SafeDefs cx d nul := by
  have key : ∀ as t, ((∃ ty, Sum.inl (ty, as) ∈ ds) ∨ Sum.inr as ∈ ds) → compile (hatted as).spell = some t → safe nul t = true := by
    intro as t hm hc
    have e : as.ok = true ∧ as.tame nul false 1 = true := by
      rcases hm with ⟨ty, hm⟩ | hm
      · exact ⟨(h _ hm).2, ht _ hm⟩
      · exact ⟨(h _ hm).2, ht _ hm⟩
    exact tame_safe nul t (tame_of (hatted_ok e.1) hc (by rw [hatted_tame]; exact e.2))
  refine ⟨hnul, fun x hx => ?_, fun t hx => ?_⟩
  · obtain ⟨as, ha, hc⟩ := h1 x hx
    exact key as x.2 (.inl ⟨_, ha⟩) hc
  · obtain ⟨as, ha, hc⟩ := h2 t hx
    exact key as t (.inr ha) hc

/-- **C38, C40 (partial).** For all definitions whose patterns are well-formed, do not begin with `^` and meet the condition of C18 as written (that of C19, if a NUL byte
follows the input): they compile, and for every input of `n` characters the loop over the tokens ends, without undefined behaviour, after at most `n`
tokens, which are not empty, lie inside the input, in order and disjoint, each directly behind the best separator.  Missing: the other definitions. -/
theorem C38_written_partial (ds : List ((Nat × Alts) ⊕ Alts)) (nul : Bool) (h : ∀ x ∈ ds, hatless (defAlts x) = true ∧ (defAlts x).ok = true)
    (ht : ∀ x ∈ ds, (defAlts x).tame nul false 1 = true) :
    ∃ d, splitDefs (ds.map defText) = some d ∧ ∀ (cx : Ctx), (nul = true → cx.post.head? = some 0) → ∀ fuel, cx.query.length ≤ fuel →
      ∃ it toks, TokIt.make cx fuel d = some it ∧ TokIt.visit cx fuel d cx.query.length it = some (toks, true) ∧
        toks.length ≤ cx.query.length ∧ Laid cx fuel d 0 toks ∧ InOrder cx.query.length 0 toks := by
  obtain ⟨d, hd, h1, h2⟩ := defs_compile ds h
  refine ⟨d, hd, fun cx hnul fuel hf => ?_⟩
  have hs := defs_safe h ht h1 h2 cx hnul
  obtain ⟨it, toks, h3, h4, h5⟩ := C40_terminates_partial cx _ d nul hd hs fuel hf
  obtain ⟨h6, h7⟩ := C38_tokens_in_order_partial cx _ d nul hd hs fuel hf it h3 _ toks true h4
  exact ⟨it, toks, h3, h4, h5, h6, h7⟩

/-- **C40 (partial).** The part of `C38_written_partial` about termination. -/
theorem C40_written_partial (ds : List ((Nat × Alts) ⊕ Alts)) (nul : Bool) (h : ∀ x ∈ ds, hatless (defAlts x) = true ∧ (defAlts x).ok = true)
    (ht : ∀ x ∈ ds, (defAlts x).tame nul false 1 = true) :
    ∃ d, splitDefs (ds.map defText) = some d ∧ ∀ (cx : Ctx), (nul = true → cx.post.head? = some 0) → ∀ fuel, cx.query.length ≤ fuel →
      ∃ it toks, TokIt.make cx fuel d = some it ∧ TokIt.visit cx fuel d cx.query.length it = some (toks, true) ∧ toks.length ≤ cx.query.length := by
  obtain ⟨d, hd, h0⟩ := C38_written_partial ds nul h ht
  refine ⟨d, hd, fun cx hnul fuel hf => ?_⟩
  obtain ⟨it, toks, h3, h4, h5, _⟩ := h0 cx hnul fuel hf
  exact ⟨it, toks, h3, h4, h5⟩

/-! ## the text of a token belongs to its definition -/

/-- What the view of a token means: it is looked for at `b1`, and there the definition with its type, anchored, matches it. -/
def Belongs (ds : List ((Nat × Alts) ⊕ Alts)) (q : List Int) (tk : Token) : Prop :=
  ∃ (b1 i j : Nat) (as : Alts), Sum.inl (tk.type, as) ∈ ds ∧ tk.value = some (((b1 + i : Nat) : Int), ((b1 + j : Nat) : Int)) ∧ i < j ∧
    Den (q.drop b1) (hatted as).sem i j

theorem laid_all {cx : Ctx} {fuel : Nat} {d : TokDefs} {b : Nat} {toks : List Token} (h : Laid cx fuel d b toks) :
    ∀ tk ∈ toks, ∃ b1, BestToken cx fuel d b1 tk := by
  induction h with
  | nil => simp
  | @cons b b1 tk tks s e _ _ hb _ _ _ _ _ ih =>
    intro x hx
    rcases List.mem_cons.1 hx with rfl | hx
    · exact ⟨b1, hb⟩
    · exact ih x hx

theorem matchAt_den {as : Alts} (hok : as.ok = true) (hs : as.sure false true = true) {nul : Bool} (ht : as.tame nul false 1 = true) {t : Node}
    (h : compile as.spell = some t) {cx : Ctx} (hnul : nul = true → cx.post.head? = some 0) {fuel b : Nat} {x y : Int}
    (e : matchAt cx fuel b t = some (some (x, y))) : ∃ i j : Nat, x = ((b + i : Nat) : Int) ∧ y = ((b + j : Nat) : Int) ∧ Den (cx.query.drop b) as.sem i j := by
  simp only [matchAt] at e
  split at e
  · rename_i st hst
    simp only [Option.some.injEq, Option.map_eq_some_iff] at e
    obtain ⟨⟨u, v⟩, h1, h2⟩ := e
    have ha : st.accepted = true := by
      simp only [toView] at h1
      split at h1
      · assumption
      · cases h1
    obtain ⟨i, j, _, h3, h4, _⟩ := C20_written_partial as hok hs nul ht t h (cx.sub b) hnul st (.make hst) ha
    rw [h3] at h1
    simp only [Option.some.injEq, Prod.mk.injEq] at h1 h2
    exact ⟨i, j, by omega, by omega, h4⟩
  · cases e

/-- **C61 (partial).** For all definitions whose patterns are well-formed and do not begin with `^`, are `tame` and whose anchored patterns are `sure` (conditions on
the definitions as written): every token that the loop visits has the type of a definition whose pattern, anchored where the token is looked for, matches exactly
the text of the token there.  Missing: the other definitions. -/
theorem C61_written_partial (ds : List ((Nat × Alts) ⊕ Alts)) (nul : Bool) (h : ∀ x ∈ ds, hatless (defAlts x) = true ∧ (defAlts x).ok = true)
    (ht : ∀ x ∈ ds, (defAlts x).tame nul false 1 = true) (hs : ∀ x ∈ ds, (hatted (defAlts x)).sure false true = true) :
    ∃ d, splitDefs (ds.map defText) = some d ∧ ∀ (cx : Ctx), (nul = true → cx.post.head? = some 0) → ∀ fuel, cx.query.length ≤ fuel →
      ∃ it toks, TokIt.make cx fuel d = some it ∧ TokIt.visit cx fuel d cx.query.length it = some (toks, true) ∧
        ∀ tk ∈ toks, Belongs ds cx.query tk := by
  obtain ⟨d, hd, h1, h2⟩ := defs_compile ds h
  refine ⟨d, hd, fun cx hnul fuel hf => ?_⟩
  have hsafe := defs_safe h ht h1 h2 cx hnul
  obtain ⟨it, toks, h3, h4, h5⟩ := C40_terminates_partial cx _ d nul hd hsafe fuel hf
  obtain ⟨h6, h7⟩ := C38_tokens_in_order_partial cx _ d nul hd hsafe fuel hf it h3 _ toks true h4
  refine ⟨it, toks, h3, h4, fun tk htk => ?_⟩
  obtain ⟨b1, hpos, k, t, hk, hm, _⟩ := laid_all h6 tk htk
  obtain ⟨as, ha, hc⟩ := h1 _ (List.mem_of_getElem? hk)
  cases hv : tk.value with
  | none => rw [hv] at hpos; simp [len] at hpos
  | some v =>
    obtain ⟨x, y⟩ := v
    rw [hv] at hm hpos
    obtain ⟨i, j, e1, e2, hden⟩ := matchAt_den (hatted_ok (h _ ha).2) (hs _ ha) (by rw [hatted_tame]; exact ht _ ha) hc hnul hm
    simp only [len] at hpos
    exact ⟨b1, i, j, as, ha, by rw [hv, e1, e2], by omega, hden⟩

/-! ## anchoring -/

theorem hatted_anchored {s : Sq} (hok : (Alts.last true s).ok = true) {t : Node} (h : compile (Alts.last true s).spell = some t) : anchored t = true := by
  simp only [compile, build_tree _ hok, Option.bind_some] at h
  obtain ⟨k, rfl⟩ := optimize_rounds h
  have e : anchored (Alts.last true s).tree = true := by
    simp only [Alts.tree, Alts.tops, pieceTree, if_true]
    cases s.tree 0 <;> simp [graft, addChild, anchored, anchoreds]
  clear h
  generalize (Alts.last true s).tree = u at e
  induction k generalizing u with
  | zero => exact e
  | succ k ih => exact ih _ (anchored_opt u [] e)

/-- **C42 (partial).** For all well-formed definitions without a `|` outside of groups that do not begin with `^`, every input, wherever it lies in memory, and every iterator
standing at offset `b`: incrementing it either leaves no token, or the token begins exactly where a separator that begins at `b` ends, or both are at the beginning
of the input.  Missing: definitions with such a `|`, for which it is false. -/
theorem C42_written_partial (ds : List ((Nat × Sq) ⊕ Sq)) (h : ∀ s, ((∃ ty, Sum.inl (ty, s) ∈ ds) ∨ Sum.inr s ∈ ds) → s.ok = true ∧ s.empty = false) :
    ∃ d, splitDefs (ds.map (fun x => defText (x.map (fun y => (y.1, Alts.last false y.2)) (Alts.last false)))) = some d ∧
      ∀ (cx : Ctx) (fuel : Nat) (it it' : TokIt) (b : Nat), it.current = some b → it.incr cx fuel d = some it' → it'.toBool = true →
        ∃ b1 e : Int, it'.last.value = some (b1, e) ∧
          ((∃ (k : Nat) (t : Node), d.seps[k]? = some t ∧ matchAt cx fuel b t = some (some ((b : Int), b1))) ∨ (b = 0 ∧ b1 = 0)) := by
  have hall : ∀ x ∈ ds.map (fun x => x.map (fun y => (y.1, Alts.last false y.2)) (Alts.last false)),
      (hatless (defAlts x) = true ∧ (defAlts x).ok = true) := by
    intro x hx
    obtain ⟨y, hy, rfl⟩ := List.mem_map.1 hx
    cases y with
    | inl y => have := h y.2 (.inl ⟨y.1, hy⟩); simp [defAlts, hatless, Alts.ok, this]
    | inr y => have := h y (.inr hy); simp [defAlts, hatless, Alts.ok, this]
  obtain ⟨d, hd, h1, h2⟩ := defs_compile _ hall
  refine ⟨d, by rw [← hd]; simp [Function.comp_def], fun cx fuel it it' b hb hi hne => ?_⟩
  have a1 : ∀ x ∈ d.tokens, anchored x.2 = true := by
    intro x hx
    obtain ⟨as, ha, hc⟩ := h1 x hx
    obtain ⟨y, hy, e⟩ := List.mem_map.1 ha
    cases y with
    | inl y =>
      simp at e; obtain ⟨_, rfl⟩ := e
      have := h y.2 (.inl ⟨y.1, hy⟩)
      exact hatted_anchored (by simp [Alts.ok, this]) hc
    | inr y => simp at e
  have a2 : ∀ t ∈ d.seps, anchored t = true := by
    intro x hx
    obtain ⟨as, ha, hc⟩ := h2 x hx
    obtain ⟨y, hy, e⟩ := List.mem_map.1 ha
    cases y with
    | inl y => simp at e
    | inr y =>
      simp at e; subst e
      have := h y (.inr hy)
      exact hatted_anchored (by simp [Alts.ok, this]) hc
  rcases C39_maximal_munch cx fuel d it it' b hb hi with ⟨b1, s, e, hr, hbest, hv, hc, hle⟩ | ⟨h0, _⟩
  · obtain ⟨_, k, t, hk, hm, _⟩ := hbest
    rw [hv] at hm
    have hs := matchAt_anchored (a1 _ (List.mem_of_getElem? hk)) hm
    refine ⟨s, e, hv, ?_⟩
    rcases hr with ⟨s0, e0, ⟨hp, k0, t0, hk0, hm0, _⟩, hb1, _⟩ | ⟨hb0, hb1, _⟩
    · left
      have hs0 := matchAt_anchored (a2 _ (List.mem_of_getElem? hk0)) hm0
      refine ⟨k0, t0, hk0, ?_⟩
      rw [hm0]
      simp only [len] at hp
      have : s = e0 := by rw [hs, hb1]; omega
      rw [hs0, this]
    · right; exact ⟨hb0, by rw [hs, hb1]; rfl⟩
  · rw [h0] at hne; simp [TokIt.toBool, TokIt.endIt, invalid, viewSize] at hne

/-! ## a case -/

/-- Tokens `[a-z_]\w*` (0), `\d+` (1), `"[^"]*"` (2); separators `\s+` and `[,;]`. -/
def writtenDefs : List ((Nat × Alts) ⊕ Alts) :=
  [.inl (0, .last false (.cons (.cls false [.rng 97 122, .chr 95] false) .once (.cons (.esc 119) (.star .greedy) (.nil false)))),
   .inl (1, .last false (.cons (.esc 100) (.plus .greedy) (.nil false))),
   .inl (2, .last false (.cons (.chr 34) .once (.cons (.cls true [.chr 34] false) (.star .greedy) (.cons (.chr 34) .once (.nil false))))),
   .inr (.last false (.cons (.esc 115) (.plus .greedy) (.nil false))),
   .inr (.last false (.cons (.cls false [.chr 44, .chr 59] false) .once (.nil false)))]

-- the conditions of C38, C40 and C61 hold of it
example : (∀ x ∈ writtenDefs, hatless (defAlts x) = true ∧ (defAlts x).ok = true) ∧ (∀ x ∈ writtenDefs, (defAlts x).tame false false 1 = true) ∧
    (∀ x ∈ writtenDefs, (hatted (defAlts x)).sure false true = true) := by decide +kernel
example : writtenDefs.map defText = [.inl (0, str "[a-z_]\\w*"), .inl (1, str "\\d+"), .inl (2, str "\"[^\"]*\""), .inr (str "\\s+"), .inr (str "[,;]")] := by
  decide +kernel
example : runTokens (writtenDefs.map defText) "ab 12,\"x y\" ?" =
    some ([⟨some (0, 2), 0⟩, ⟨some (3, 5), 1⟩, ⟨some (6, 11), 2⟩], true) := by decide +kernel

end ERegex.Props

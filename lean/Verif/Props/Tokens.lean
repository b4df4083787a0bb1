import Verif.Proofs.TokenIter
import Verif.Props.Search
import Verif.Props.Anchors
/-!
# C38–C42 : the token iterator

`ds` is the list of definitions written by the user (`Sum.inl (type, pattern)` is a token, `Sum.inr pattern` a separator);
`splitDefs ds = some d` says that they compile.  `matchAt cx fuel b t` is the view that regex `t` reports on the input from
offset `b` on, in coordinates of the input.  `fuel` bounds the iterations of each regex search (C32: the length of the input
is enough).
-/
set_option autoImplicit false
namespace ERegex.Props
open ERegex ERegex.Spec

/-! ## Definitions -/

/-- Every tree comes from a pattern. -/
theorem splitDefs_compiled : ∀ {ds : List (Nat × List Int ⊕ List Int)} {d : TokDefs}, splitDefs ds = some d →
    (∀ x ∈ d.tokens, ∃ p, compile p = some x.2) ∧ (∀ t ∈ d.seps, ∃ p, compile p = some t)
  | [], d, h => by simp [splitDefs] at h; subst h; simp
  | .inl (ty, p) :: ds, d, h => by
    simp only [splitDefs] at h
    split at h
    · rename_i t r h1 h2
      simp at h; subst h
      obtain ⟨ha, hb⟩ := splitDefs_compiled h2
      refine ⟨?_, hb⟩
      intro x hx
      rcases List.mem_cons.1 hx with rfl | hx
      · exact ⟨_, h1⟩
      · exact ha x hx
    · simp at h
  | .inr p :: ds, d, h => by
    simp only [splitDefs] at h
    split at h
    · rename_i t r h1 h2
      simp at h; subst h
      obtain ⟨ha, hb⟩ := splitDefs_compiled h2
      refine ⟨ha, ?_⟩
      intro x hx
      rcases List.mem_cons.1 hx with rfl | hx
      · exact ⟨_, h1⟩
      · exact hb x hx
    · simp at h

/-- All definitions meet the condition of C18 (or of C19, if the input is NUL-terminated). -/
structure SafeDefs (cx : Ctx) (d : TokDefs) (nul : Bool) : Prop where
  mem : nul = true → cx.post.head? = some 0
  tokens : ∀ x ∈ d.tokens, safe nul x.2 = true
  seps : ∀ t ∈ d.seps, safe nul t = true

theorem SafeDefs.tree {cx : Ctx} {ds : List (Nat × List Int ⊕ List Int)} {d : TokDefs} {nul : Bool} (hd : splitDefs ds = some d)
    (h : SafeDefs cx d nul) (b : Nat) : (∀ x ∈ d.tokens, SafeTree (cx.sub b) x.2) ∧ (∀ t ∈ d.seps, SafeTree (cx.sub b) t) := by
  obtain ⟨ha, hb⟩ := splitDefs_compiled hd
  constructor
  · intro x hx
    obtain ⟨p, hp⟩ := ha x hx
    exact compile_safeTree hp (h.tokens x hx) h.mem
  · intro x hx
    obtain ⟨p, hp⟩ := hb x hx
    exact compile_safeTree hp (h.seps x hx) h.mem

/-! ## C39 -/

/-- The best token at offset `b`: the definition at index `k`, whose match is the longest, and the first among equals;
it is not empty. -/
def BestToken (cx : Ctx) (fuel : Nat) (d : TokDefs) (b : Nat) (tk : Token) : Prop :=
  0 < len tk.value ∧ ∃ (k : Nat) (t : Node), d.tokens[k]? = some (tk.type, t) ∧ matchAt cx fuel b t = some tk.value ∧
    ∀ (i : Nat) ty t', d.tokens[i]? = some (ty, t') → ∃ v, matchAt cx fuel b t' = some v ∧
      len v ≤ len tk.value ∧ (i < k → len v < len tk.value)

/-- The best separator at offset `b`, with view `v`. -/
def BestSep (cx : Ctx) (fuel : Nat) (d : TokDefs) (b : Nat) (v : View) : Prop :=
  0 < len v ∧ ∃ (k : Nat) (t : Node), d.seps[k]? = some t ∧ matchAt cx fuel b t = some v ∧
    ∀ (i : Nat) t', d.seps[i]? = some t' → ∃ w, matchAt cx fuel b t' = some w ∧ len w ≤ len v ∧ (i < k → len w < len v)

/-- No token (of positive length) at offset `b`. -/
def NoToken (cx : Ctx) (fuel : Nat) (d : TokDefs) (b : Nat) : Prop :=
  ∀ x ∈ d.tokens, ∃ v, matchAt cx fuel b x.2 = some v ∧ len v ≤ 0
/-- No separator (of positive length) at offset `b`. -/
def NoSep (cx : Ctx) (fuel : Nat) (d : TokDefs) (b : Nat) : Prop :=
  ∀ t ∈ d.seps, ∃ v, matchAt cx fuel b t = some v ∧ len v ≤ 0

theorem viewSize_len (v : View) : viewSize v = len v := by cases v <;> rfl

theorem matchToken_spec {cx : Ctx} {fuel : Nat} {d : TokDefs} {b : Nat} {r : Option (Nat × Token)}
    (h : matchToken cx fuel d b = some r) :
    (r = none ∧ NoToken cx fuel d b) ∨
    (∃ tk s e, r = some (e.toNat, tk) ∧ tk.value = some (s, e) ∧ e ≤ cx.qend ∧ BestToken cx fuel d b tk) := by
  simp only [matchToken] at h
  split at h
  · simp at h
  · rename_i ms hms
    obtain ⟨hl, hmem⟩ := mapM_some hms
    have hget : ∀ (i : Nat) ty t', d.tokens[i]? = some (ty, t') → ∃ v, matchAt cx fuel b t' = some v ∧ ms[i]? = some (⟨v, ty⟩ : Token) := by
      intro i ty t' hi
      obtain ⟨tk, h1, h2⟩ := hmem i _ hi
      simp only [Option.map_eq_some_iff] at h1
      obtain ⟨v, hv, rfl⟩ := h1
      exact ⟨v, hv, h2⟩
    rcases maxElement_spec (fun m : Token => viewSize m.value) ms with ⟨h0, rfl⟩ | ⟨x, k, h0, hk, hx⟩
    · rw [h0] at h
      simp only [Option.some.injEq] at h
      refine Or.inl ⟨h.symm, ?_⟩
      have : d.tokens = [] := by simpa using hl.symm
      simp [NoToken, this]
    · simp only [viewSize_len] at hx
      have hno : len x.value ≤ 0 → NoToken cx fuel d b := by
        intro hle y hy
        obtain ⟨i, hi⟩ := List.getElem?_of_mem hy
        obtain ⟨v, hv, hm⟩ := hget i y.1 y.2 hi
        have := (hx i _ hm).1
        exact ⟨v, hv, by simp only at this; omega⟩
      rw [h0] at h
      obtain ⟨value, ty⟩ := x
      cases value with
      | none =>
        simp only [Option.some.injEq] at h
        exact Or.inl ⟨h.symm, hno (by simp [len])⟩
      | some se =>
        obtain ⟨s, e⟩ := se
        simp only at h
        split at h
        · rename_i hpos
          split at h
          · rename_i hle
            simp only [Option.some.injEq] at h
            refine Or.inr ⟨_, s, e, h.symm, rfl, hle, by simp only [len]; omega, ?_⟩
            have hkl : k < d.tokens.length := by
              rw [← hl]; exact (List.getElem?_eq_some_iff.1 hk).1
            obtain ⟨ty', t', hdk'⟩ : ∃ ty' t', d.tokens[k]? = some (ty', t') :=
              ⟨_, _, List.getElem?_eq_getElem hkl⟩
            obtain ⟨v, hv, hm⟩ := hget k ty' t' hdk'
            rw [hk] at hm
            simp only [Option.some.injEq, Token.mk.injEq] at hm
            refine ⟨k, t', by rw [hdk', ← hm.2], by rw [hv, ← hm.1], ?_⟩
            intro i ty2 t2 hi
            obtain ⟨w, hw, hm2⟩ := hget i ty2 t2 hi
            exact ⟨w, hw, hx i _ hm2⟩
          · simp at h
        · rename_i hpos
          simp only [Option.some.injEq] at h
          exact Or.inl ⟨h.symm, hno (by simp only [len]; omega)⟩

theorem matchSeparator_spec {cx : Ctx} {fuel : Nat} {d : TokDefs} {b : Nat} {r : Option Nat}
    (h : matchSeparator cx fuel d b = some r) :
    (r = none ∧ NoSep cx fuel d b) ∨
    (∃ s e, r = some e.toNat ∧ e ≤ cx.qend ∧ BestSep cx fuel d b (some (s, e))) := by
  simp only [matchSeparator] at h
  split at h
  · simp at h
  · rename_i ms hms
    obtain ⟨hl, hget⟩ := mapM_some hms
    rcases maxElement_spec viewSize ms with ⟨h0, rfl⟩ | ⟨x, k, h0, hk, hx⟩
    · rw [h0] at h
      simp only [Option.some.injEq] at h
      refine Or.inl ⟨h.symm, ?_⟩
      have : d.seps = [] := by simpa using hl.symm
      simp [NoSep, this]
    · simp only [viewSize_len] at hx
      have hno : len x ≤ 0 → NoSep cx fuel d b := by
        intro hle y hy
        obtain ⟨i, hi⟩ := List.getElem?_of_mem hy
        obtain ⟨v, hv, hm⟩ := hget i y hi
        have := (hx i _ hm).1
        exact ⟨v, hv, by omega⟩
      rw [h0] at h
      cases x with
      | none =>
        simp only [Option.some.injEq] at h
        exact Or.inl ⟨h.symm, hno (by simp [len])⟩
      | some se =>
        obtain ⟨s, e⟩ := se
        simp only at h
        split at h
        · rename_i hpos
          split at h
          · rename_i hle
            simp only [Option.some.injEq] at h
            refine Or.inr ⟨s, e, h.symm, hle, by simp only [len]; omega, ?_⟩
            have hkl : k < d.seps.length := by
              rw [← hl]; exact (List.getElem?_eq_some_iff.1 hk).1
            have hdk' : d.seps[k]? = some d.seps[k] := List.getElem?_eq_getElem hkl
            obtain ⟨v, hv, hm⟩ := hget k _ hdk'
            rw [hk] at hm
            simp only [Option.some.injEq] at hm
            refine ⟨k, _, hdk', by rw [hv, ← hm], ?_⟩
            intro i t2 hi
            obtain ⟨w, hw, hm2⟩ := hget i t2 hi
            exact ⟨w, hw, hx i _ hm2⟩
          · simp at h
        · rename_i hpos
          simp only [Option.some.injEq] at h
          exact Or.inl ⟨h.symm, hno (by simp only [len]; omega)⟩

/-- From offset `b` the token `tk` is reached: after the best separator, or (only at the very beginning of the input) without
one; `b1` is where the token is looked for. -/
def Reaches (cx : Ctx) (fuel : Nat) (d : TokDefs) (b b1 : Nat) : Prop :=
  (∃ s e, BestSep cx fuel d b (some (s, e)) ∧ b1 = e.toNat ∧ e ≤ cx.qend) ∨ (b = 0 ∧ b1 = 0 ∧ NoSep cx fuel d b)

/-- **C39.** For all definitions and inputs, and every iterator that stands at offset `b` of the input: incrementing it yields
either the longest token (the first defined among equally long ones) found where the longest separator (likewise) ends — or at the beginning of the
input if there is no separator there —, or the end; and the end exactly if there is no separator (except at the beginning) or
no token. -/
theorem C39_maximal_munch (cx : Ctx) (fuel : Nat) (d : TokDefs) (it it' : TokIt) (b : Nat) (hb : it.current = some b)
    (h : it.incr cx fuel d = some it') :
    (∃ b1 s e, Reaches cx fuel d b b1 ∧ BestToken cx fuel d b1 it'.last ∧ it'.last.value = some (s, e) ∧
      it'.current = some e.toNat ∧ e ≤ cx.qend) ∨
    (it' = .endIt ∧ ((b ≠ 0 ∧ NoSep cx fuel d b) ∨ ∃ b1, Reaches cx fuel d b b1 ∧ NoToken cx fuel d b1)) := by
  have tok : ∀ b1 r, Reaches cx fuel d b b1 → matchToken cx fuel d b1 = some r →
      (match r with
        | none => some invalid
        | some (b', tk) => some ({ current := some b', last := tk } : TokIt)) = some it' →
      (∃ b1 s e, Reaches cx fuel d b b1 ∧ BestToken cx fuel d b1 it'.last ∧ it'.last.value = some (s, e) ∧
        it'.current = some e.toNat ∧ e ≤ cx.qend) ∨
      (it' = .endIt ∧ ((b ≠ 0 ∧ NoSep cx fuel d b) ∨ ∃ b1, Reaches cx fuel d b b1 ∧ NoToken cx fuel d b1)) := by
    intro b1 r hr hm he
    rcases matchToken_spec hm with ⟨rfl, hn⟩ | ⟨tk, s, e, rfl, hv, hle, hbest⟩
    · simp only [Option.some.injEq] at he
      exact Or.inr ⟨he.symm, Or.inr ⟨b1, hr, hn⟩⟩
    · simp only [Option.some.injEq] at he
      subst he
      exact Or.inl ⟨b1, s, e, hr, hbest, hv, rfl, hle⟩
  simp only [TokIt.incr, hb] at h
  split at h
  · simp at h
  · rename_i hs
    rcases matchSeparator_spec hs with ⟨_, hn⟩ | ⟨_, _, h0, _⟩
    · split at h
      · rename_i hb0
        simp only [Option.some.injEq] at h
        exact Or.inr ⟨h.symm, Or.inl ⟨hb0, hn⟩⟩
      · rename_i hb0
        have hb0 : b = 0 := by omega
        subst hb0
        split at h
        · simp at h
        · rename_i hm; exact tok 0 none (Or.inr ⟨rfl, rfl, hn⟩) hm h
        · rename_i b' tk hm; exact tok 0 (some (b', tk)) (Or.inr ⟨rfl, rfl, hn⟩) hm h
    · simp at h0
  · rename_i b1 hs
    rcases matchSeparator_spec hs with ⟨h0, _⟩ | ⟨s, e, h0, hle, hbest⟩
    · simp at h0
    · simp only [Option.some.injEq] at h0
      have hr : Reaches cx fuel d b b1 := Or.inl ⟨s, e, hbest, h0, hle⟩
      split at h
      · simp at h
      · rename_i hm; exact tok b1 none hr hm h
      · rename_i b' tk hm; exact tok b1 (some (b', tk)) hr hm h

/-! ## Histories -/

/-- Iterators a program can hold: `tokenizer(input)` followed by any number of increments, all of which returned. -/
inductive TokReach (cx : Ctx) (d : TokDefs) : TokIt → Prop
  | make {fuel : Nat} {it : TokIt} : TokIt.make cx fuel d = some it → TokReach cx d it
  | incr {fuel : Nat} {it it' : TokIt} : TokReach cx d it → it.incr cx fuel d = some it' → TokReach cx d it'

/-- Holding a token `[s, e)`, standing at its end. -/
def Holds (cx : Ctx) (it : TokIt) : Prop := ∃ s e, it.last.value = some (s, e) ∧ s < e ∧ e ≤ cx.qend ∧ it.current = some e.toNat
/-- At the end: no token, and no input left. -/
def AtEndIt (cx : Ctx) (it : TokIt) : Prop := it.last.value = none ∧ (it.current = none ∨ (it.current = some 0 ∧ cx.query = []))

theorem incr_inv {cx : Ctx} {fuel : Nat} {d : TokDefs} {it it' : TokIt} (h : it.incr cx fuel d = some it') :
    Holds cx it' ∨ it' = .endIt := by
  cases hb : it.current with
  | none =>
    simp only [TokIt.incr, hb] at h
    split at h
    · simp at h
    · simp at h; exact Or.inr h.symm
  | some b =>
    rcases C39_maximal_munch cx fuel d it it' b hb h with ⟨b1, s, e, _, hbest, hv, hc, hle⟩ | ⟨h1, _⟩
    · refine Or.inl ⟨s, e, hv, ?_, hle, hc⟩
      have := hbest.1
      rw [hv] at this
      simp only [len] at this
      omega
    · exact Or.inr h1

theorem tok_inv {cx : Ctx} {d : TokDefs} {it : TokIt} (h : TokReach cx d it) : Holds cx it ∨ AtEndIt cx it := by
  cases h with
  | @make fuel it h =>
    simp only [TokIt.make] at h
    split at h
    · rename_i hq
      simp only [List.isEmpty_iff] at hq
      simp at h
      subst h
      exact Or.inr ⟨rfl, Or.inr ⟨rfl, hq⟩⟩
    · rcases incr_inv h with h | rfl
      · exact Or.inl h
      · exact Or.inr ⟨rfl, Or.inl rfl⟩
  | @incr fuel it0 it _ h =>
    rcases incr_inv h with h | rfl
    · exact Or.inl h
    · exact Or.inr ⟨rfl, Or.inl rfl⟩

theorem eq_end_of_atEnd {cx : Ctx} {it : TokIt} (h : AtEndIt cx it) : it.eqIt cx .endIt = some true := by
  obtain ⟨h1, h2⟩ := h
  rcases h2 with h2 | ⟨h2, hq⟩
  · simp [TokIt.eqIt, TokIt.currentView, TokIt.endIt, invalid, h1, h2, viewEqO]
  · simp [TokIt.eqIt, TokIt.currentView, TokIt.endIt, invalid, h1, h2, viewEqO, Ctx.qend, hq]

theorem eq_end_of_holds {cx : Ctx} {it : TokIt} (h : Holds cx it) : it.eqIt cx .endIt = some false := by
  obtain ⟨s, e, h1, h2, _, h3⟩ := h
  have hne : ¬ (e - s = 0) := by omega
  simp only [TokIt.eqIt, TokIt.currentView, TokIt.endIt, invalid, h1, h3, viewEqO, Option.map_some, Option.map_none, hne, decide_false]
  show (match some (decide (cx.qend - ((e.toNat : Nat) : Int) = 0)) with
    | none => none
    | some false => some false
    | some true => some false) = some false
  generalize decide (cx.qend - (e.toNat : Int) = 0) = x
  cases x <;> rfl

/-! ## C41 -/

/-- **C41.** For all definitions, inputs and histories: the comparison with `end()` is defined, and it is true exactly when the
iterator converts to `false`, exactly when it carries no token. -/
theorem C41_end_detection (cx : Ctx) (d : TokDefs) (it : TokIt) (h : TokReach cx d it) :
    it.eqIt cx .endIt = some (!it.toBool) ∧ (it.toBool = false ↔ it.last.value = none) := by
  rcases tok_inv h with h | h
  · have he := eq_end_of_holds h
    obtain ⟨s, e, h1, h2, _, h3⟩ := h
    have hb : it.toBool = true := by
      simp only [TokIt.toBool, h1, viewSize, ne_eq, decide_eq_true_eq]; omega
    rw [he, hb]
    simp [h1]
  · have hb : it.toBool = false := by simp [TokIt.toBool, h.1, viewSize]
    rw [eq_end_of_atEnd h, hb]
    simp [h.1]

/-- **C41.** An iterator at the end of a non-empty input is `end()` itself, and incrementing it (if the separators do not read
through the null pointer) keeps it so. -/
theorem C41_end_stays (cx : Ctx) (d : TokDefs) (it : TokIt) (h : TokReach cx d it) (hq : cx.query ≠ [])
    (he : it.eqIt cx .endIt = some true) :
    it.current = none ∧ it.last.value = none ∧ ∀ fuel it', it.incr cx fuel d = some it' → it' = .endIt := by
  rcases tok_inv h with h | h
  · rw [eq_end_of_holds h] at he; simp at he
  · obtain ⟨h1, h2⟩ := h
    rcases h2 with h2 | ⟨_, h2⟩
    · refine ⟨h2, h1, ?_⟩
      intro fuel it' hi
      simp only [TokIt.incr, h2] at hi
      split at hi
      · simp at hi
      · simp at hi; exact hi.symm
    · exact absurd h2 hq

/-- The null view: whatever a separator reports there is empty, so that the step of the model which invalidates the iterator is the one of
the code. -/
theorem C41_null_view (fuel : Nat) (t : Node) (v : View) (h : matchAt Ctx.null fuel 0 t = some v) : len v = 0 := by
  rw [← viewSize_len]; exact matchAt_null h

/-! ## C38 -/

/-- A tokenization from offset `b` on: each token is the best one where it is looked for, which is directly after the best
separator (or at the beginning of the input); it is not empty and lies inside the input; the next one is looked for from its
end on. -/
inductive Laid (cx : Ctx) (fuel : Nat) (d : TokDefs) : Nat → List Token → Prop
  | nil {b : Nat} : Laid cx fuel d b []
  | cons {b b1 : Nat} {tk : Token} {tks : List Token} {s e : Int} : Reaches cx fuel d b b1 → b ≤ b1 → BestToken cx fuel d b1 tk →
      tk.value = some (s, e) → (b1 : Int) ≤ s → s < e → e ≤ cx.qend → Laid cx fuel d e.toNat tks → Laid cx fuel d b (tk :: tks)

theorem reaches_good {cx : Ctx} {ds : List (Nat × List Int ⊕ List Int)} {d : TokDefs} {nul : Bool} (hd : splitDefs ds = some d)
    (hs : SafeDefs cx d nul) {fuel : Nat} (hf : cx.query.length ≤ fuel) {b b1 : Nat} (hb : b ≤ cx.query.length)
    (h : Reaches cx fuel d b b1) : b ≤ b1 ∧ b1 ≤ cx.query.length := by
  rcases h with ⟨s, e, ⟨_, k, t, hk, hm, _⟩, rfl, hle⟩ | ⟨rfl, rfl, _⟩
  · obtain ⟨v, hv, hw⟩ := matchAt_good hb ((hs.tree hd b).2 t (List.mem_of_getElem? hk)) hf
    rw [hm] at hv
    have := hw s e (Option.some.inj hv).symm
    simp only [Ctx.qend] at hle this
    omega
  · exact ⟨by omega, by omega⟩

theorem best_good {cx : Ctx} {ds : List (Nat × List Int ⊕ List Int)} {d : TokDefs} {nul : Bool} (hd : splitDefs ds = some d)
    (hs : SafeDefs cx d nul) {fuel : Nat} (hf : cx.query.length ≤ fuel) {b1 : Nat} (hb : b1 ≤ cx.query.length) {tk : Token} {s e : Int}
    (h : BestToken cx fuel d b1 tk) (hv : tk.value = some (s, e)) : (b1 : Int) ≤ s ∧ s < e ∧ e ≤ cx.qend := by
  obtain ⟨hpos, k, t, hk, hm, _⟩ := h
  obtain ⟨v, hv', hw⟩ := matchAt_good hb ((hs.tree hd b1).1 _ (List.mem_of_getElem? hk)) hf
  rw [hm] at hv'
  have := hw s e (by rw [← Option.some.inj hv', hv])
  rw [hv] at hpos
  simp only [len] at hpos
  omega

/-- One increment, safe definitions. -/
theorem incr_safe {cx : Ctx} {ds : List (Nat × List Int ⊕ List Int)} {d : TokDefs} {nul : Bool} (hd : splitDefs ds = some d)
    (hs : SafeDefs cx d nul) {fuel : Nat} (hf : cx.query.length ≤ fuel) {it it' : TokIt} {b : Nat} (hb : it.current = some b)
    (hbl : b ≤ cx.query.length) (h : it.incr cx fuel d = some it') :
    it' = .endIt ∨ ∃ b1 s e, Reaches cx fuel d b b1 ∧ b ≤ b1 ∧ BestToken cx fuel d b1 it'.last ∧ it'.last.value = some (s, e) ∧
      (b1 : Int) ≤ s ∧ s < e ∧ e ≤ cx.qend ∧ it'.current = some e.toNat := by
  rcases C39_maximal_munch cx fuel d it it' b hb h with ⟨b1, s, e, hr, hbest, hv, hc, hle⟩ | ⟨h1, _⟩
  · obtain ⟨h2, h3⟩ := reaches_good hd hs hf hbl hr
    obtain ⟨h4, h5, h6⟩ := best_good hd hs hf h3 hbest hv
    exact Or.inr ⟨b1, s, e, hr, h2, hbest, hv, h4, h5, h6, hc⟩
  · exact Or.inl h1

theorem visit_end {cx : Ctx} {fuel : Nat} {d : TokDefs} {n : Nat} {it : TokIt} (h : AtEndIt cx it) :
    TokIt.visit cx fuel d n it = some ([], true) := by
  cases n <;> simp [TokIt.visit, eq_end_of_atEnd h]

theorem visit_laid {cx : Ctx} {ds : List (Nat × List Int ⊕ List Int)} {d : TokDefs} {nul : Bool} (hd : splitDefs ds = some d)
    (hs : SafeDefs cx d nul) {fuel : Nat} (hf : cx.query.length ≤ fuel) : ∀ (n : Nat) (it : TokIt) (s e : Int) (toks : List Token) (fl : Bool),
    it.last.value = some (s, e) → 0 ≤ s → s < e → e ≤ cx.qend → it.current = some e.toNat →
    TokIt.visit cx fuel d n it = some (toks, fl) → toks = [] ∨ ∃ rest, toks = it.last :: rest ∧ Laid cx fuel d e.toNat rest := by
  intro n
  induction n with
  | zero =>
    intro it s e toks fl h1 _ h2 h3 h4 h
    rw [TokIt.visit, eq_end_of_holds ⟨s, e, h1, h2, h3, h4⟩] at h
    simp at h
    exact Or.inl h.1
  | succ n ih =>
    intro it s e toks fl h1 h0 h2 h3 h4 h
    simp only [TokIt.visit, eq_end_of_holds ⟨s, e, h1, h2, h3, h4⟩] at h
    split at h
    · simp at h
    · rename_i it' hi
      simp only [Option.map_eq_some_iff] at h
      obtain ⟨⟨rest, fl'⟩, hr, h⟩ := h
      simp only [Prod.mk.injEq] at h
      right
      refine ⟨rest, h.1.symm, ?_⟩
      rcases incr_safe hd hs hf h4 (by simp only [Ctx.qend] at h3; omega) hi with rfl | ⟨b1, s', e', hre, hb, hbest, hv, h5, h6, h7, hc⟩
      · rw [visit_end ⟨rfl, Or.inl rfl⟩] at hr
        simp at hr
        rw [hr.1]; exact .nil
      · rcases ih it' s' e' rest fl' hv (by omega) h6 h7 hc hr with rfl | ⟨rest', rfl, hl⟩
        · exact .nil
        · exact .cons hre hb hbest hv h5 h6 h7 hl

/-- Non-empty, inside the input, in order and disjoint. -/
def InOrder (n : Int) : Int → List Token → Prop
  | _, [] => True
  | b, tk :: tks => ∃ s e, tk.value = some (s, e) ∧ b ≤ s ∧ s < e ∧ e ≤ n ∧ InOrder n e tks

theorem laid_inOrder {cx : Ctx} {fuel : Nat} {d : TokDefs} {b : Nat} {toks : List Token} (h : Laid cx fuel d b toks) :
    InOrder cx.qend b toks := by
  induction h with
  | nil => trivial
  | @cons b b1 tk tks s e _ hb _ hv h5 h6 h7 _ ih =>
    refine ⟨s, e, hv, by omega, h6, h7, ?_⟩
    have : ((e.toNat : Nat) : Int) = e := by omega
    rwa [this] at ih

/-- **C38 (partial).** For all definitions that meet the condition of C18 (or C19), every input, and any number `n` of steps of
`for (auto token : tokenizer(input))`: the tokens visited are non-empty, inside the input, in input order and disjoint, and each
is the best token where it is looked for, directly behind the best separator (or at the beginning of the input).  Missing:
definitions outside that condition (their regexes can report views outside the input, see C18). -/
theorem C38_tokens_in_order_partial (cx : Ctx) (ds : List (Nat × List Int ⊕ List Int)) (d : TokDefs) (nul : Bool)
    (hd : splitDefs ds = some d) (hs : SafeDefs cx d nul) (fuel : Nat) (hf : cx.query.length ≤ fuel) (it : TokIt)
    (hm : TokIt.make cx fuel d = some it) (n : Nat) (toks : List Token) (fl : Bool)
    (h : TokIt.visit cx fuel d n it = some (toks, fl)) :
    Laid cx fuel d 0 toks ∧ InOrder cx.query.length 0 toks := by
  suffices hl : Laid cx fuel d 0 toks from ⟨hl, by simpa [Ctx.qend] using laid_inOrder hl⟩
  simp only [TokIt.make] at hm
  split at hm
  · rename_i hq
    simp only [List.isEmpty_iff] at hq
    simp at hm
    subst hm
    rw [visit_end ⟨rfl, Or.inr ⟨rfl, hq⟩⟩] at h
    simp at h
    rw [h.1]; exact .nil
  · rcases incr_safe hd hs hf rfl (by omega) hm with rfl | ⟨b1, s', e', hre, hb, hbest, hv, h5, h6, h7, hc⟩
    · rw [visit_end ⟨rfl, Or.inl rfl⟩] at h
      simp at h
      rw [h.1]; exact .nil
    · rcases visit_laid hd hs hf n it s' e' toks fl hv (by omega) h6 h7 hc h with rfl | ⟨rest', rfl, hl⟩
      · exact .nil
      · exact .cons hre hb hbest hv h5 h6 h7 hl

/-! ## C40 -/

theorem matchSeparator_total {cx : Ctx} {ds : List (Nat × List Int ⊕ List Int)} {d : TokDefs} {nul : Bool} (hd : splitDefs ds = some d)
    (hs : SafeDefs cx d nul) {fuel : Nat} (hf : cx.query.length ≤ fuel) {b : Nat} (hb : b ≤ cx.query.length) :
    ∃ r, matchSeparator cx fuel d b = some r := by
  obtain ⟨vs, hvs⟩ := mapM_all (f := matchAt cx fuel b) (l := d.seps) (fun t ht => by
    obtain ⟨v, hv, _⟩ := matchAt_good hb ((hs.tree hd b).2 t ht) hf; exact ⟨v, hv⟩)
  simp only [matchSeparator, hvs]
  split
  · rename_i s e hmx
    split
    · rw [if_pos]
      · exact ⟨_, rfl⟩
      · rcases maxElement_spec viewSize vs with ⟨h0, _⟩ | ⟨x, k, h0, hk, _⟩
        · rw [h0] at hmx; simp at hmx
        · rw [h0] at hmx
          simp only [Option.some.injEq] at hmx
          subst hmx
          obtain ⟨hl, hget⟩ := mapM_some hvs
          have hkl : k < d.seps.length := by rw [← hl]; exact (List.getElem?_eq_some_iff.1 hk).1
          obtain ⟨v, hv, hm⟩ := hget k _ (List.getElem?_eq_getElem hkl)
          obtain ⟨v', hv', hw⟩ := matchAt_good hb ((hs.tree hd b).2 _ (List.getElem_mem hkl)) hf
          rw [hv] at hv'
          rw [hk] at hm
          simp only [Option.some.injEq] at hv' hm
          exact (hw s e (by rw [← hv', ← hm])).2.2
    · exact ⟨_, rfl⟩
  · exact ⟨_, rfl⟩

theorem matchToken_total {cx : Ctx} {ds : List (Nat × List Int ⊕ List Int)} {d : TokDefs} {nul : Bool} (hd : splitDefs ds = some d)
    (hs : SafeDefs cx d nul) {fuel : Nat} (hf : cx.query.length ≤ fuel) {b : Nat} (hb : b ≤ cx.query.length) :
    ∃ r, matchToken cx fuel d b = some r := by
  obtain ⟨vs, hvs⟩ := mapM_all (f := fun tt : Nat × Node => (matchAt cx fuel b tt.2).map (fun v => ({ value := v, type := tt.1 } : Token)))
    (l := d.tokens) (fun t ht => by
    obtain ⟨v, hv, _⟩ := matchAt_good hb ((hs.tree hd b).1 t ht) hf; exact ⟨_, by rw [hv]; rfl⟩)
  simp only [matchToken, hvs]
  split
  · rename_i s e ty hmx
    split
    · rw [if_pos]
      · exact ⟨_, rfl⟩
      · rcases maxElement_spec (fun m : Token => viewSize m.value) vs with ⟨h0, _⟩ | ⟨x, k, h0, hk, _⟩
        · rw [h0] at hmx; simp at hmx
        · rw [h0] at hmx
          simp only [Option.some.injEq] at hmx
          subst hmx
          obtain ⟨hl, hget⟩ := mapM_some hvs
          have hkl : k < d.tokens.length := by rw [← hl]; exact (List.getElem?_eq_some_iff.1 hk).1
          obtain ⟨tk, hv, hm⟩ := hget k _ (List.getElem?_eq_getElem hkl)
          obtain ⟨v', hv', hw⟩ := matchAt_good hb ((hs.tree hd b).1 _ (List.getElem_mem hkl)) hf
          rw [hv'] at hv
          rw [hk] at hm
          simp only [Option.some.injEq, Option.map_some] at hv hm
          subst hv
          simp only [Token.mk.injEq] at hm
          exact (hw s e hm.1.symm).2.2
    · exact ⟨_, rfl⟩
  · exact ⟨_, rfl⟩

theorem incr_total {cx : Ctx} {ds : List (Nat × List Int ⊕ List Int)} {d : TokDefs} {nul : Bool} (hd : splitDefs ds = some d)
    (hs : SafeDefs cx d nul) {fuel : Nat} (hf : cx.query.length ≤ fuel) {it : TokIt} {b : Nat} (hc : it.current = some b)
    (hb : b ≤ cx.query.length) : ∃ it', it.incr cx fuel d = some it' := by
  obtain ⟨r, hr⟩ := matchSeparator_total hd hs hf hb
  simp only [TokIt.incr, hc, hr]
  cases r with
  | none =>
    simp only
    split
    · exact ⟨_, rfl⟩
    · obtain ⟨r2, hr2⟩ := matchToken_total hd hs hf hb
      rw [hr2]
      cases r2 with
      | none => exact ⟨_, rfl⟩
      | some x => exact ⟨_, rfl⟩
  | some b1 =>
    have hb1 : b1 ≤ cx.query.length := by
      rcases matchSeparator_spec hr with ⟨h0, _⟩ | ⟨s, e, h0, hle, hbest⟩
      · simp at h0
      · exact (reaches_good hd hs hf hb (Or.inl ⟨s, e, hbest, by simpa using h0, hle⟩)).2
    obtain ⟨r2, hr2⟩ := matchToken_total hd hs hf hb1
    simp only
    rw [hr2]
    cases r2 with
    | none => exact ⟨_, rfl⟩
    | some x => exact ⟨_, rfl⟩

theorem visit_total {cx : Ctx} {ds : List (Nat × List Int ⊕ List Int)} {d : TokDefs} {nul : Bool} (hd : splitDefs ds = some d)
    (hs : SafeDefs cx d nul) {fuel : Nat} (hf : cx.query.length ≤ fuel) : ∀ (n : Nat) (it : TokIt) (s e : Int),
    it.last.value = some (s, e) → 0 ≤ s → s < e → e ≤ cx.qend → it.current = some e.toNat → cx.qend - e + 1 ≤ n →
    ∃ toks, TokIt.visit cx fuel d n it = some (toks, true) ∧ (toks.length : Int) ≤ cx.qend - e + 1 := by
  intro n
  induction n with
  | zero => intro it s e _ _ _ _ _ hn; simp at hn; omega
  | succ n ih =>
    intro it s e h1 h0 h2 h3 h4 hn
    have hel : e.toNat ≤ cx.query.length := by simp only [Ctx.qend] at h3; omega
    obtain ⟨it', hi⟩ := incr_total hd hs hf h4 hel
    simp only [TokIt.visit, eq_end_of_holds ⟨s, e, h1, h2, h3, h4⟩, hi]
    rcases incr_safe hd hs hf h4 hel hi with rfl | ⟨b1, s', e', hre, hb, hbest, hv, h5, h6, h7, hc⟩
    · rw [visit_end ⟨rfl, Or.inl rfl⟩]
      exact ⟨[it.last], rfl, by simp; omega⟩
    · obtain ⟨toks, ht, hlen⟩ := ih it' s' e' hv (by omega) h6 h7 hc (by push_cast at hn; omega)
      rw [ht]
      exact ⟨it.last :: toks, rfl, by push_cast [List.length_cons]; omega⟩

/-- **C40 (partial).** For all definitions that meet the condition of C18 (or C19) and every input of `n` characters: the
tokenizer is constructed and the loop over its tokens ends, without undefined behaviour, after at most `n` tokens.  Missing: the
other definitions. -/
theorem C40_terminates_partial (cx : Ctx) (ds : List (Nat × List Int ⊕ List Int)) (d : TokDefs) (nul : Bool)
    (hd : splitDefs ds = some d) (hs : SafeDefs cx d nul) (fuel : Nat) (hf : cx.query.length ≤ fuel) :
    ∃ it toks, TokIt.make cx fuel d = some it ∧ TokIt.visit cx fuel d cx.query.length it = some (toks, true) ∧
      toks.length ≤ cx.query.length := by
  simp only [TokIt.make]
  split
  · rename_i hq
    simp only [List.isEmpty_iff] at hq
    exact ⟨_, [], rfl, visit_end ⟨rfl, Or.inr ⟨rfl, hq⟩⟩, by simp⟩
  · obtain ⟨it', hi⟩ := incr_total hd hs hf (it := { current := some 0, last := { value := none, type := 0 } }) rfl (by omega)
    rcases incr_safe hd hs hf rfl (by omega) hi with rfl | ⟨b1, s', e', hre, hb, hbest, hv, h5, h6, h7, hc⟩
    · exact ⟨_, [], hi, visit_end ⟨rfl, Or.inl rfl⟩, by simp⟩
    · obtain ⟨toks, ht, hlen⟩ := visit_total hd hs hf cx.query.length it' s' e' hv (by omega) h6 h7 hc
        (by simp only [Ctx.qend]; omega)
      exact ⟨it', toks, hi, ht, by simp only [Ctx.qend] at hlen; omega⟩

/-! ## C42 -/

/-- **C42.** A view reported by an anchored regex begins where it is applied. -/
theorem matchAt_anchored {cx : Ctx} {fuel b : Nat} {t : Node} (ha : anchored t = true) {s e : Int}
    (h : matchAt cx fuel b t = some (some (s, e))) : s = b := by
  simp only [matchAt] at h
  split at h
  · rename_i st hst
    simp only [Option.some.injEq, Option.map_eq_some_iff] at h
    obtain ⟨⟨x, y⟩, h1, h2⟩ := h
    simp only [toView] at h1
    split at h1
    · rename_i hacc
      have := reach_anchored ha (Reach.make hst) hacc
      simp only [Option.some.injEq, Prod.mk.injEq] at h1 h2
      omega
    · simp at h1
  · simp at h

/-- The pattern of a definition. -/
def patternOf : Nat × List Int ⊕ List Int → List Int
  | .inl (_, p) => p
  | .inr p => p

theorem splitDefs_anchored : ∀ {ds : List (Nat × List Int ⊕ List Int)} {d : TokDefs}, splitDefs ds = some d →
    (∀ x ∈ ds, StartsWithCaret (str "^" ++ patternOf x)) →
    (∀ x ∈ d.tokens, anchored x.2 = true) ∧ (∀ t ∈ d.seps, anchored t = true)
  | [], d, h, _ => by simp [splitDefs] at h; subst h; simp
  | .inl (ty, p) :: ds, d, h, ha => by
    simp only [splitDefs] at h
    split at h
    · rename_i t r h1 h2
      simp at h; subst h
      obtain ⟨h3, h4⟩ := splitDefs_anchored h2 (fun x hx => ha x (by simp [hx]))
      refine ⟨?_, h4⟩
      intro x hx
      rcases List.mem_cons.1 hx with rfl | hx
      · exact starts_anchored h1 (ha (.inl (ty, p)) (by simp))
      · exact h3 x hx
    · simp at h
  | .inr p :: ds, d, h, ha => by
    simp only [splitDefs] at h
    split at h
    · rename_i t r h1 h2
      simp at h; subst h
      obtain ⟨h3, h4⟩ := splitDefs_anchored h2 (fun x hx => ha x (by simp [hx]))
      refine ⟨h3, ?_⟩
      intro x hx
      rcases List.mem_cons.1 hx with rfl | hx
      · exact starts_anchored h1 (ha (.inr p) (by simp))
      · exact h4 x hx
    · simp at h

/-- A definition without top-level `|` that does not begin with a quantifier, after the library has put `^` in front of it. -/
theorem C42_caret_of_plain (p : List Int) (ts : List (List Int)) (ht : tokenize (str "^" ++ p) = some ([94] :: ts))
    (hbar : splitT 124 ([94] :: ts) = [[94] :: ts]) (hq : ts.head?.getD [] ∉ ([[42], [43], [63], [123]] : List (List Int))) :
    StartsWithCaret (str "^" ++ p) := by
  refine ⟨_, ht, ?_⟩
  rw [hbar]
  intro a ha
  simp only [List.mem_singleton] at ha
  subst ha
  refine ⟨rfl, ?_⟩
  cases ts with
  | nil => simpa using hq
  | cons x ts => simpa using hq

/-- **C42 (partial).** If in every definition the `^` that the library puts in front anchors all alternatives (that is, if no
definition has a top-level `|`), then for every input and every iterator standing at offset `b`: the separator is matched exactly at
`b` and the token exactly where the separator ends, never further on.  Missing: definitions with a top-level `|`, for which
the claim is false. -/
theorem C42_tokens_at_current_partial (cx : Ctx) (ds : List (Nat × List Int ⊕ List Int)) (d : TokDefs)
    (hd : splitDefs ds = some d) (ha : ∀ x ∈ ds, StartsWithCaret (str "^" ++ patternOf x)) (fuel : Nat) (it it' : TokIt) (b : Nat)
    (hb : it.current = some b) (h : it.incr cx fuel d = some it') (hne : it'.toBool = true) :
    ∃ b1 e : Int, it'.last.value = some (b1, e) ∧
      ((∃ (k : Nat) (t : Node), d.seps[k]? = some t ∧ matchAt cx fuel b t = some (some ((b : Int), b1))) ∨ (b = 0 ∧ b1 = 0)) := by
  obtain ⟨h1, h2⟩ := splitDefs_anchored hd ha
  rcases C39_maximal_munch cx fuel d it it' b hb h with ⟨b1, s, e, hr, hbest, hv, hc, hle⟩ | ⟨h0, _⟩
  · obtain ⟨_, k, t, hk, hm, _⟩ := hbest
    rw [hv] at hm
    have hs := matchAt_anchored (h1 _ (List.mem_of_getElem? hk)) hm
    refine ⟨s, e, hv, ?_⟩
    rcases hr with ⟨s0, e0, ⟨hp, k0, t0, hk0, hm0, _⟩, hb1, _⟩ | ⟨hb0, hb1, _⟩
    · left
      have hs0 := matchAt_anchored (h2 _ (List.mem_of_getElem? hk0)) hm0
      refine ⟨k0, t0, hk0, ?_⟩
      rw [hm0]
      simp only [len] at hp
      have : s = e0 := by rw [hs, hb1]; omega
      rw [hs0, this]
    · right; exact ⟨hb0, by rw [hs, hb1]; rfl⟩
  · rw [h0] at hne; simp [TokIt.toBool, TokIt.endIt, invalid, viewSize] at hne

/-! ## Concrete cases -/

open ERegex.Conformance (lit)

/-- Words, numbers and two kinds of separators. -/
def exDefs : List (Nat × List Int ⊕ List Int) :=
  [.inl (0, str "[a-z]+"), .inl (1, str "\\d+"), .inr (str "\\s+"), .inr (str ",")]

/-- The loop over the tokens of `s`. -/
def runTokens (ds : List (Nat × List Int ⊕ List Int)) (s : String) : Option (List Token × Bool) :=
  match splitDefs ds with
  | none => none
  | some d =>
    match TokIt.make (lit s) s.length d with
    | none => none
    | some it => TokIt.visit (lit s) s.length d s.length it

/-- Checks `SafeDefs` (without NUL) of the compiled definitions. -/
def safeDefs (ds : List (Nat × List Int ⊕ List Int)) : Bool :=
  match splitDefs ds with
  | none => false
  | some d => d.tokens.all (fun x => safe false x.2) && d.seps.all (safe false)

theorem safeDefs_spec {ds : List (Nat × List Int ⊕ List Int)} (h : safeDefs ds = true) (cx : Ctx) :
    ∃ d, splitDefs ds = some d ∧ SafeDefs cx d false := by
  simp only [safeDefs] at h
  split at h
  · simp at h
  · rename_i d hd
    simp only [Bool.and_eq_true, List.all_eq_true] at h
    exact ⟨d, hd, by simp, h.1, h.2⟩

/-- The hypotheses of C38 and C40 are met by `exDefs`, for every input; … -/
theorem exDefs_safe (cx : Ctx) : ∃ d, splitDefs exDefs = some d ∧ SafeDefs cx d false := safeDefs_spec (by decide +kernel) cx
/-- … so every input is tokenized, for instance: -/
example (s : String) : ∃ d it toks, splitDefs exDefs = some d ∧ TokIt.make (lit s) (str s).length d = some it ∧
    TokIt.visit (lit s) (str s).length d (str s).length it = some (toks, true) ∧ toks.length ≤ (str s).length := by
  obtain ⟨d, hd, hs⟩ := exDefs_safe (lit s)
  obtain ⟨it, toks, h⟩ := C40_terminates_partial (lit s) exDefs d false hd hs (str s).length (Nat.le_refl _)
  exact ⟨d, it, toks, hd, h⟩
example : runTokens exDefs "ab 12,x  y7" = some ([⟨some (0, 2), 0⟩, ⟨some (3, 5), 1⟩, ⟨some (6, 7), 0⟩, ⟨some (9, 10), 0⟩], true) := by
  decide +kernel
/-- Longest match, the first definition wins ties. -/
example : runTokens [.inl (0, str "a"), .inl (1, str "a+"), .inl (2, str "[ab]+"), .inr (str " ")] "aa a ab" =
    some ([⟨some (0, 2), 1⟩, ⟨some (3, 4), 0⟩, ⟨some (5, 7), 2⟩], true) := by decide +kernel
/-- The hypothesis of `C42` is met by `exDefs`. -/
example : ∀ x ∈ exDefs, StartsWithCaret (str "^" ++ patternOf x) := by
  intro x hx
  simp only [exDefs, List.mem_cons, List.not_mem_nil, or_false] at hx
  rcases hx with rfl | rfl | rfl | rfl
  · exact C42_caret_of_plain _ ((tokenize (str "^[a-z]+")).getD []).tail (by decide +kernel) (by decide +kernel) (by decide +kernel)
  · exact C42_caret_of_plain _ ((tokenize (str "^\\d+")).getD []).tail (by decide +kernel) (by decide +kernel) (by decide +kernel)
  · exact C42_caret_of_plain _ ((tokenize (str "^\\s+")).getD []).tail (by decide +kernel) (by decide +kernel) (by decide +kernel)
  · exact C42_caret_of_plain _ ((tokenize (str "^,")).getD []).tail (by decide +kernel) (by decide +kernel) (by decide +kernel)

/-- **C42, refuted.** The `^` put in front of a definition anchors its first alternative only: the token `a|b` is found further on,
silently skipping input, and a separator `,|;` skips over `b x`. -/
theorem C42_refuted : runTokens [.inl (0, str "a|b"), .inr (str " ")] "xb b" = some ([⟨some (1, 2), 0⟩, ⟨some (3, 4), 0⟩], true) ∧
    runTokens [.inl (0, str "a"), .inr (str ",|;")] "b x;a" = some ([⟨some (4, 5), 0⟩], true) := by decide +kernel

end ERegex.Props

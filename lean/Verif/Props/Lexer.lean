import Verif.Spec.Lexer
import Verif.Props.Validate
import Verif.Props.Tokens
import Verif.Proofs.CommitWays
/-!
# C57, C58 : tokenizing a text, from the spelling of the definitions to the tokens

`Spec/Lexer.lean` says, without reference to the library, what the tokens of a text are.
-/
set_option autoImplicit false
namespace ERegex.Props
open ERegex ERegex.Spec
open ERegex.Conformance (lit m)

/-- The definition as the user writes it. -/
def spelled : (Nat × Sq) ⊕ Sq → Nat × List Int ⊕ List Int
  | .inl (ty, s) => .inl (ty, s.spell)
  | .inr s => .inr s.spell

/-- The pattern of a definition. -/
def seqOf : (Nat × Sq) ⊕ Sq → Sq
  | .inl (_, s) => s
  | .inr s => s

/-- The span that `s` is expected to report when it is applied at offset `b` of `q`. -/
def spanAt (q : List Int) (b : Nat) (s : Sq) : View :=
  ((s.ways (q.drop b) 0 0 noCaps).head?).map (fun w => ((b : Int), ((b + w.1 : Nat) : Int)))

/-- `t` does at every offset what `s` says. -/
def Does (cx : Ctx) (fuel : Nat) (s : Sq) (t : Node) : Prop := ∀ b, b ≤ cx.query.length → matchAt cx fuel b t = some (spanAt cx.query b s)

theorem ways_within {s : Sq} {q : List Int} {w : Way} (h : (s.ways q 0 0 noCaps).head? = some w) : w.1 ≤ q.length := by
  have := alts_ends q (.last true s) 0 0 noCaps (Nat.zero_le _) w (by
    have h0 : (Alts.last true s).ways q 0 0 noCaps = s.ways q 0 0 noCaps := by simp [Alts.ways]
    rw [h0]; exact List.mem_of_mem_head? h)
  exact this.2.1

theorem hat_spell (s : Sq) : (Alts.last true s).spell = str "^" ++ s.spell := by
  have h94 : str "^" = [(94 : Int)] := by decide
  simp [Alts.spell, h94]

theorem hat_chars {s : Sq} (hc : ∀ c ∈ s.spell, c ∈ allChars) : ∀ c ∈ (Alts.last true s).spell, c ∈ allChars := by
  rw [hat_spell]; intro c hc'
  rcases List.mem_append.1 hc' with h | h
  · have : c = 94 := by simpa using (show c ∈ [(94 : Int)] from by simpa [show str "^" = [(94 : Int)] from by decide] using h)
    subst this; decide +kernel
  · exact hc c h

/-- The pattern, with `^` in front, compiles and does at every offset what it says; `need` tells if the input must be followed by a NUL. -/
def Compiles (need : Sq → Bool) (s : Sq) : Prop :=
  ∃ t, compile (str "^" ++ s.spell) = some t ∧
    ∀ (cx : Ctx), (∀ c ∈ cx.query, c ∈ allChars) → cx.query.length < 4294967295 → (need s = true → cx.post.head? = some 0) →
      ∀ (fuel : Nat), cx.query.length ≤ fuel → Does cx fuel s t

theorem does_of {need : Sq → Bool} {s : Sq} (h : ∃ t, compile (Alts.last true s).spell = some t ∧
      ∀ (cx : Ctx), (∀ c ∈ cx.query, c ∈ allChars) → cx.query.length < 4294967295 → (need s = true → cx.post.head? = some 0) →
        ∀ (fuel : Nat), cx.query.length ≤ fuel → ∃ st, construct cx t fuel = .ok st ∧
          match (s.ways cx.query 0 0 noCaps).head? with
          | none => st.accepted = false
          | some w => st.accepted = true ∧ Reports (.last true s) st 0 w) : Compiles need s := by
  obtain ⟨t, ht, h⟩ := h
  rw [hat_spell] at ht
  refine ⟨t, ht, fun cx hq hlen hn fuel hfuel b hb => ?_⟩
  obtain ⟨st, e1, e2⟩ := h (cx.sub b) (fun c hc' => hq c (List.mem_of_mem_drop hc')) (by simp [Ctx.sub]; omega) hn fuel (by simp [Ctx.sub]; omega)
  simp only [matchAt, e1, spanAt]
  have hqs : (cx.sub b).query = cx.query.drop b := rfl
  rw [hqs] at e2
  cases hw : (s.ways (cx.query.drop b) 0 0 noCaps).head? with
  | none =>
    rw [hw] at e2
    simp only [toView]
    simp [e2]
  | some w =>
    rw [hw] at e2
    have := e2.2.1
    simp only [getGroup, if_true, Option.some.injEq] at this
    rw [this]
    simp only [Option.map_some, Option.some.injEq, Prod.mk.injEq]
    omega

theorem compile_does (s : Sq) (hr : (Alts.last true s).capRegular = true) (hc : ∀ c ∈ s.spell, c ∈ allChars) : Compiles Sq.dollar s :=
  does_of (C55_whole_query_groups_partial s hr (hat_chars hc))

theorem spanAt_size (q : List Int) (b : Nat) (s : Sq) : viewSize (spanAt q b s) = prefixLen s (q.drop b) := by
  simp only [spanAt, prefixLen]
  show _ = (((match (s.ways (q.drop b) 0 0 noCaps).head? with | none => 0 | some w => w.1) : Nat) : Int)
  cases (s.ways (q.drop b) 0 0 noCaps).head? with
  | none => rfl
  | some w => simp only [Option.map_some, viewSize]; omega

theorem mapM_map {α β : Type} {f : α → Option β} {g : α → β} : ∀ (l : List α), (∀ a ∈ l, f a = some (g a)) → l.mapM f = some (l.map g)
  | [], _ => rfl
  | x :: l, h => by
    simp [List.mapM_cons, h x (by simp), mapM_map l (fun a ha => h a (by simp [ha]))]

/-- The largest of the numbers. -/
def biggest {α : Type} (len : α → Nat) (l : List α) : Nat := l.foldr (fun s n => max (len s) n) 0

theorem biggest_find {α : Type} (len : α → Nat) : ∀ (l : List α), l ≠ [] → ∃ y, l.find? (fun x => len x == biggest len l) = some y ∧ len y = biggest len l
  | [], h => absurd rfl h
  | x :: l, _ => by
    by_cases hl : l = []
    · subst hl; exact ⟨x, by simp [biggest], by simp [biggest]⟩
    · obtain ⟨y, h1, h2⟩ := biggest_find len l hl
      by_cases hx : len x < biggest len l
      · have hb : biggest len (x :: l) = biggest len l := by simp only [biggest, List.foldr_cons] at hx ⊢; omega
        rw [hb]
        exact ⟨y, by rw [List.find?_cons_of_neg (by simp; omega)]; exact h1, h2⟩
      · have hb : biggest len (x :: l) = len x := by simp only [biggest, List.foldr_cons] at hx ⊢; omega
        rw [hb]
        exact ⟨x, by simp, rfl⟩

theorem maxElement_find {α β : Type} (len : α → Nat) (g : α → β) (size : β → Int) (hs : ∀ x, size (g x) = len x) : ∀ (l : List α),
    maxElement size (l.map g) = (l.find? (fun x => len x == biggest len l)).map g
  | [] => rfl
  | x :: l => by
    simp only [List.map_cons, maxElement]
    rw [maxElement_find len g size hs l]
    by_cases hl : l = []
    · subst hl; simp [biggest]
    · obtain ⟨y, h1, h2⟩ := biggest_find len l hl
      rw [h1]
      simp only [Option.map_some, hs, h2]
      by_cases hx : len x < biggest len l
      · have hb : biggest len (x :: l) = biggest len l := by simp only [biggest, List.foldr_cons] at hx ⊢; omega
        rw [hb, List.find?_cons_of_neg (by simp; omega), h1, if_pos (by omega)]
        rfl
      · have hb : biggest len (x :: l) = len x := by simp only [biggest, List.foldr_cons] at hx ⊢; omega
        rw [hb, if_neg (by omega)]
        simp

/-- The trees of `d` do what the definitions say. -/
inductive Does2 (cx : Ctx) (fuel : Nat) : List (Nat × Sq) → List (Nat × Node) → Prop
  | nil : Does2 cx fuel [] []
  | cons {ty : Nat} {s : Sq} {t : Node} {l r} : Does cx fuel s t → Does2 cx fuel l r → Does2 cx fuel ((ty, s) :: l) ((ty, t) :: r)

inductive Does1 (cx : Ctx) (fuel : Nat) : List Sq → List Node → Prop
  | nil : Does1 cx fuel [] []
  | cons {s : Sq} {t : Node} {l r} : Does cx fuel s t → Does1 cx fuel l r → Does1 cx fuel (s :: l) (t :: r)

theorem does1_mapM {cx : Ctx} {fuel b : Nat} (hb : b ≤ cx.query.length) {l : List Sq} {r : List Node} (h : Does1 cx fuel l r) :
    r.mapM (matchAt cx fuel b) = some (l.map (spanAt cx.query b)) := by
  induction h with
  | nil => rfl
  | cons h1 _ ih => simp [List.mapM_cons, h1 b hb, ih]

theorem does2_mapM {cx : Ctx} {fuel b : Nat} (hb : b ≤ cx.query.length) {l : List (Nat × Sq)} {r : List (Nat × Node)} (h : Does2 cx fuel l r) :
    r.mapM (fun tt => (matchAt cx fuel b tt.2).map (fun v => ({ value := v, type := tt.1 } : Token))) =
      some (l.map (fun x => ⟨spanAt cx.query b x.2, x.1⟩)) := by
  induction h with
  | nil => rfl
  | cons h1 _ ih => simp [List.mapM_cons, h1 b hb, ih]

theorem longest_biggest (ss : List Sq) (text : List Int) : longest ss text = biggest (fun s => prefixLen s text) ss := rfl

theorem longest_biggest2 (toks : List (Nat × Sq)) (text : List Int) :
    longest (toks.map Prod.snd) text = biggest (fun x => prefixLen x.2 text) toks := by
  induction toks with
  | nil => rfl
  | cons x l ih => simp only [longest, biggest, List.map_cons, List.foldr_cons] at ih ⊢; rw [ih]

theorem spanAt_some {q : List Int} {b : Nat} {s : Sq} (h : prefixLen s (q.drop b) ≠ 0) :
    spanAt q b s = some ((b : Int), ((b + prefixLen s (q.drop b) : Nat) : Int)) := by
  have hs := spanAt_size q b s
  simp only [spanAt] at hs ⊢
  cases hw : (s.ways (q.drop b) 0 0 noCaps).head? with
  | none => rw [hw] at hs; simp [viewSize] at hs; omega
  | some w =>
    rw [hw] at hs
    simp only [Option.map_some, viewSize] at hs ⊢
    congr 2
    omega

theorem prefixLen_le (s : Sq) (q : List Int) : prefixLen s q ≤ q.length := by
  unfold prefixLen
  show (match (s.ways q 0 0 noCaps).head? with | none => 0 | some w => w.1) ≤ _
  cases hw : (s.ways q 0 0 noCaps).head? with
  | none => exact Nat.zero_le _
  | some w => exact ways_within hw

theorem matchSeparator_does {cx : Ctx} {fuel b : Nat} {d : TokDefs} {l : List Sq} (hb : b ≤ cx.query.length) (h : Does1 cx fuel l d.seps) :
    matchSeparator cx fuel d b = some (if longest l (cx.query.drop b) = 0 then none else some (b + longest l (cx.query.drop b))) := by
  simp only [matchSeparator, does1_mapM hb h]
  rw [maxElement_find (fun s => prefixLen s (cx.query.drop b)) _ _ (spanAt_size cx.query b)]
  by_cases hl : l = []
  · subst hl; simp [longest]
  · obtain ⟨y, h1, h2⟩ := biggest_find (fun s => prefixLen s (cx.query.drop b)) l hl
    rw [h1]
    rw [longest_biggest, ← h2]
    simp only [Option.map_some]
    by_cases h0 : prefixLen y (cx.query.drop b) = 0
    · rw [if_pos h0]
      have hs := spanAt_size cx.query b y
      cases hv : spanAt cx.query b y with
      | none => rfl
      | some v =>
        rw [hv] at hs
        simp only [viewSize] at hs
        simp only
        rw [if_neg (by omega)]
    · rw [if_neg h0, spanAt_some h0]
      simp only
      have := prefixLen_le y (cx.query.drop b)
      simp only [List.length_drop] at this
      rw [if_pos (by omega), if_pos (by simp only [Ctx.qend]; omega)]
      simp
      omega

theorem matchToken_does {cx : Ctx} {fuel b : Nat} {d : TokDefs} {l : List (Nat × Sq)} (hb : b ≤ cx.query.length) (h : Does2 cx fuel l d.tokens) :
    matchToken cx fuel d b = some ((tokenAt l (cx.query.drop b)).map (fun x => (b + x.2, ⟨some ((b : Int), ((b + x.2 : Nat) : Int)), x.1⟩))) := by
  simp only [matchToken, does2_mapM hb h, tokenAt]
  rw [maxElement_find (fun x : Nat × Sq => prefixLen x.2 (cx.query.drop b)) (fun x => (⟨spanAt cx.query b x.2, x.1⟩ : Token)) _
    (fun x => spanAt_size cx.query b x.2)]
  rw [longest_biggest2]
  by_cases hl : l = []
  · subst hl; simp [biggest]
  · obtain ⟨y, h1, h2⟩ := biggest_find (fun x : Nat × Sq => prefixLen x.2 (cx.query.drop b)) l hl
    rw [h1]
    rw [← h2]
    simp only [Option.map_some]
    by_cases h0 : prefixLen y.2 (cx.query.drop b) = 0
    · rw [if_pos h0]
      have hs := spanAt_size cx.query b y.2
      cases hv : spanAt cx.query b y.2 with
      | none => rfl
      | some v =>
        rw [hv] at hs
        simp only [viewSize] at hs
        simp only
        rw [if_neg (by omega)]
        rfl
    · rw [if_neg h0, spanAt_some h0]
      simp only
      have := prefixLen_le y.2 (cx.query.drop b)
      simp only [List.length_drop] at this
      rw [if_pos (by omega), if_pos (by simp only [Ctx.qend]; omega)]
      simp
      omega

/-- The token as the iterator reports it. -/
def tok (x : Nat × Nat × Nat) : Token := ⟨some ((x.2.1 : Int), (x.2.2 : Int)), x.1⟩

theorem tokenAt_pos {l : List (Nat × Sq)} {text : List Int} {ty k : Nat} (h : tokenAt l text = some (ty, k)) : 0 < k := by
  simp only [tokenAt] at h
  split at h
  · simp at h
  · simp only [Option.map_eq_some_iff, Prod.mk.injEq] at h
    obtain ⟨_, _, _, rfl⟩ := h
    omega

theorem longest_le (l : List Sq) (text : List Int) : longest l text ≤ text.length := by
  induction l with
  | nil => simp [longest]
  | cons s l ih =>
    have h1 := prefixLen_le s text
    have h2 := ih
    simp only [longest, List.foldr_cons] at h2 ⊢
    omega

theorem tokenAt_le {l : List (Nat × Sq)} {text : List Int} {ty k : Nat}
    (h : tokenAt l text = some (ty, k)) : k ≤ text.length := by
  simp only [tokenAt] at h
  split at h
  · simp at h
  · simp only [Option.map_eq_some_iff, Prod.mk.injEq] at h
    obtain ⟨_, _, _, rfl⟩ := h
    exact longest_le _ text

/-- One step of the iterator. -/
theorem incr_does {cx : Ctx} {fuel : Nat} {d : TokDefs} {lt : List (Nat × Sq)} {ls : List Sq} (h1 : Does1 cx fuel ls d.seps) (h2 : Does2 cx fuel lt d.tokens)
    {it : TokIt} {b : Nat}
    (hc : it.current = some b) (hb : b ≤ cx.query.length) :
    it.incr cx fuel d = some (if longest ls (cx.query.drop b) = 0 ∧ b ≠ 0 then invalid else
      match tokenAt lt (cx.query.drop (b + longest ls (cx.query.drop b))) with
      | none => invalid
      | some (ty, k) => { current := some (b + longest ls (cx.query.drop b) + k), last := tok (ty, b + longest ls (cx.query.drop b), b + longest ls (cx.query.drop b) + k) }) := by
  have hn := longest_le ls (cx.query.drop b)
  simp only [List.length_drop] at hn
  simp only [TokIt.incr, hc, matchSeparator_does hb h1]
  by_cases h0 : longest ls (cx.query.drop b) = 0
  · simp only [h0, if_true, true_and, Nat.add_zero]
    by_cases hb0 : b = 0
    · rw [if_neg (by omega), if_neg (by omega), matchToken_does hb h2]
      cases tokenAt lt (cx.query.drop b) with
      | none => rfl
      | some x => rfl
    · rw [if_pos hb0, if_pos hb0]
  · rw [if_neg h0]
    simp only [h0, false_and, if_false]
    rw [matchToken_does (by omega) h2]
    cases tokenAt lt (cx.query.drop (b + longest ls (cx.query.drop b))) with
    | none => rfl
    | some x => rfl

theorem visit_invalid {cx : Ctx} {fuel : Nat} {d : TokDefs} {n : Nat} : TokIt.visit cx fuel d n invalid = some ([], true) :=
  visit_end ⟨rfl, Or.inl rfl⟩

theorem visit_does {cx : Ctx} {fuel : Nat} {d : TokDefs} {lt : List (Nat × Sq)} {ls : List Sq} (h1 : Does1 cx fuel ls d.seps) (h2 : Does2 cx fuel lt d.tokens) :
    ∀ (n f : Nat) (it : TokIt) (ty s e : Nat), it.last = tok (ty, s, e) → it.current = some e → s < e → e ≤ cx.query.length → cx.query.length - e < n →
      cx.query.length - e ≤ f →
      TokIt.visit cx fuel d n it = some (tok (ty, s, e) :: (lexFrom lt ls cx.query f e).map tok, true)
  | 0, f, it, ty, s, e, _, _, _, _, hn, _ => by omega
  | n + 1, f, it, ty, s, e, hl, hc, hse, he, hn, hf => by
    simp only [TokIt.visit]
    rw [eq_end_of_holds ⟨(s : Int), (e : Int), by rw [hl]; rfl, by omega, by simp only [Ctx.qend]; omega, by rw [hc]; simp⟩]
    simp only [incr_does h1 h2 hc he]
    have hlen := longest_le ls (cx.query.drop e)
    simp only [List.length_drop] at hlen
    by_cases h0 : longest ls (cx.query.drop e) = 0 ∧ e ≠ 0
    · have : lexFrom lt ls cx.query f e = [] := by
        cases f with
        | zero => rfl
        | succ f => simp only [lexFrom]; rw [if_pos h0]
      rw [if_pos h0, visit_invalid, this, hl]
      rfl
    · rw [if_neg h0]
      cases htk : tokenAt lt (cx.query.drop (e + longest ls (cx.query.drop e))) with
      | none =>
        have : lexFrom lt ls cx.query f e = [] := by
          cases f with
          | zero => rfl
          | succ f => simp only [lexFrom]; rw [if_neg h0, htk]
        simp only
        rw [visit_invalid, this, hl]
        rfl
      | some x =>
        obtain ⟨ty', k⟩ := x
        have hk := tokenAt_pos htk
        have hk2 := tokenAt_le htk
        simp only [List.length_drop] at hk2
        obtain ⟨f', rfl⟩ : ∃ f', f = f' + 1 := ⟨f - 1, by omega⟩
        simp only
        rw [visit_does h1 h2 n f' _ ty' (e + longest ls (cx.query.drop e)) (e + longest ls (cx.query.drop e) + k) rfl rfl (by omega) (by omega)
          (by omega) (by omega)]
        simp only [lexFrom]
        rw [if_neg h0, htk, hl]
        rfl

theorem splitDefs_does {need : Sq → Bool} : ∀ (ds : List ((Nat × Sq) ⊕ Sq)), (∀ x ∈ ds, Compiles need (seqOf x)) →
    ∃ d, splitDefs (ds.map spelled) = some d ∧ ∀ (cx : Ctx), (∀ c ∈ cx.query, c ∈ allChars) → cx.query.length < 4294967295 →
      ((∃ x ∈ ds, need (seqOf x) = true) → cx.post.head? = some 0) → ∀ (fuel : Nat), cx.query.length ≤ fuel →
        Does1 cx fuel (sepsOf ds) d.seps ∧ Does2 cx fuel (tokensOf ds) d.tokens
  | [], _ => ⟨_, rfl, fun _ _ _ _ _ _ => ⟨.nil, .nil⟩⟩
  | x :: ds, hr => by
    obtain ⟨d, hd, h⟩ := splitDefs_does ds (fun y hy => hr y (by simp [hy]))
    obtain ⟨t, ht, h2⟩ := hr x (by simp)
    cases x with
    | inl x =>
      obtain ⟨ty, s⟩ := x
      refine ⟨{ d with tokens := (ty, t) :: d.tokens }, ?_, fun cx hq hlen hn fuel hf => ?_⟩
      · simp only [List.map_cons, spelled, splitDefs]
        rw [show compile (str "^" ++ s.spell) = some t from ht, hd]
      · obtain ⟨h3, h4⟩ := h cx hq hlen (fun ⟨y, hy, hy2⟩ => hn ⟨y, by simp [hy], hy2⟩) fuel hf
        exact ⟨h3, .cons (h2 cx hq hlen (fun hd => hn ⟨_, by simp, hd⟩) fuel hf) h4⟩
    | inr s =>
      refine ⟨{ d with seps := t :: d.seps }, ?_, fun cx hq hlen hn fuel hf => ?_⟩
      · simp only [List.map_cons, spelled, splitDefs]
        rw [show compile (str "^" ++ s.spell) = some t from ht, hd]
      · obtain ⟨h3, h4⟩ := h cx hq hlen (fun ⟨y, hy, hy2⟩ => hn ⟨y, by simp [hy], hy2⟩) fuel hf
        exact ⟨.cons (h2 cx hq hlen (fun hd => hn ⟨_, by simp, hd⟩) fuel hf) h3, h4⟩

theorem tokenizer_of {need : Sq → Bool} (ds : List ((Nat × Sq) ⊕ Sq)) (hr : ∀ x ∈ ds, Compiles need (seqOf x)) :
    ∃ d, splitDefs (ds.map spelled) = some d ∧ ∀ (cx : Ctx), (∀ c ∈ cx.query, c ∈ allChars) → cx.query.length < 4294967295 →
      ((∃ x ∈ ds, need (seqOf x) = true) → cx.post.head? = some 0) → ∀ (fuel : Nat), cx.query.length ≤ fuel →
        ∃ it, TokIt.make cx fuel d = some it ∧ ∀ n, cx.query.length ≤ n →
          TokIt.visit cx fuel d n it = some ((lex (tokensOf ds) (sepsOf ds) cx.query).map tok, true) := by
  obtain ⟨d, hd, h⟩ := splitDefs_does ds hr
  refine ⟨d, hd, fun cx hq hlen hn fuel hf => ?_⟩
  obtain ⟨h1, h2⟩ := h cx hq hlen hn fuel hf
  simp only [TokIt.make]
  by_cases hemp : cx.query.isEmpty = true
  · rw [if_pos hemp]
    have : cx.query = [] := by simpa using hemp
    refine ⟨_, rfl, fun n _ => ?_⟩
    rw [visit_end ⟨rfl, Or.inr ⟨rfl, this⟩⟩, this]
    rfl
  · rw [if_neg hemp]
    have hpos : 0 < cx.query.length := by
      cases hq : cx.query with
      | nil => rw [hq] at hemp; simp at hemp
      | cons => simp
    obtain ⟨f, hfl⟩ : ∃ f, cx.query.length = f + 1 := ⟨cx.query.length - 1, by omega⟩
    have hlen := longest_le (sepsOf ds) (cx.query.drop 0)
    simp only [List.length_drop] at hlen
    refine ⟨_, incr_does h1 h2 rfl (Nat.zero_le _), fun n hn => ?_⟩
    simp only [lex]
    rw [hfl]
    simp only [lexFrom, ne_eq, not_true, and_false, if_false]
    cases htk : tokenAt (tokensOf ds) (cx.query.drop (0 + longest (sepsOf ds) (cx.query.drop 0))) with
    | none =>
      simp only
      rw [visit_invalid]
      rfl
    | some x =>
      obtain ⟨ty', k⟩ := x
      have hk := tokenAt_pos htk
      have hk2 := tokenAt_le htk
      simp only [List.length_drop] at hk2
      simp only
      rw [visit_does h1 h2 n f _ ty' (0 + longest (sepsOf ds) (cx.query.drop 0)) (0 + longest (sepsOf ds) (cx.query.drop 0) + k) rfl rfl (by omega)
        (by omega) (by omega) (by omega)]
      rfl

/-- **C57 (partial).** For all definitions of tokens and separators whose patterns, anchored with `^`, meet the condition of C49, every input of
`char` values shorter than 2^32-1 (followed by a NUL if a definition contains `$`), wherever it lies in memory: the definitions compile, the tokenizer
is constructed, and the loop over its tokens visits exactly the tokens that the specification `lex` lists, with type, begin and end, and then ends.
Missing: other definitions (a top-level `|`: see C42). -/
theorem C57_tokenizer_partial (ds : List ((Nat × Sq) ⊕ Sq)) (hr : ∀ x ∈ ds, (Alts.last true (seqOf x)).capRegular = true)
    (hc : ∀ x ∈ ds, ∀ c ∈ (seqOf x).spell, c ∈ allChars) :
    ∃ d, splitDefs (ds.map spelled) = some d ∧ ∀ (cx : Ctx), (∀ c ∈ cx.query, c ∈ allChars) → cx.query.length < 4294967295 →
      ((∃ x ∈ ds, (seqOf x).dollar = true) → cx.post.head? = some 0) → ∀ (fuel : Nat), cx.query.length ≤ fuel →
        ∃ it, TokIt.make cx fuel d = some it ∧ ∀ n, cx.query.length ≤ n →
          TokIt.visit cx fuel d n it = some ((lex (tokensOf ds) (sepsOf ds) cx.query).map tok, true) :=
  tokenizer_of ds (fun x hx => compile_does _ (hr x hx) (hc x hx))

/-! ## the tokenizer of the README -/

/-- `[a-z]+` -/
def wordSq : Sq := .cons (.cls false [.rng 97 122] false) (.plus .greedy) (.nil false)
/-- `\d+` -/
def numberSq : Sq := .cons (.esc 100) (.plus .greedy) (.nil false)
/-- `\s` -/
def spaceSq : Sq := .cons (.esc 115) .once (.nil false)
/-- `token {WORD, "[a-z]+"}, token {NUMBER, "\d+"}, separator {"\s"}` -/
def readmeDefs : List ((Nat × Sq) ⊕ Sq) := [.inl (0, wordSq), .inl (1, numberSq), .inr spaceSq]

theorem readme_spelled : readmeDefs.map spelled = [.inl (0, str "[a-z]+"), .inl (1, str "\\d+"), .inr (str "\\s")] := by decide +kernel
/-- The hypotheses of C57 are met by it, … -/
theorem readme_ok : (∀ x ∈ readmeDefs, (Alts.last true (seqOf x)).capRegular = true) ∧ (∀ x ∈ readmeDefs, ∀ c ∈ (seqOf x).spell, c ∈ allChars) ∧
    ¬ ∃ x ∈ readmeDefs, (seqOf x).dollar = true := by decide +kernel
/-- … and this is what the specification says of an example; -/
example : lex (tokensOf readmeDefs) (sepsOf readmeDefs) (str "a 123 def") = [(0, 0, 1), (1, 2, 5), (0, 6, 9)] ∧
    lex (tokensOf readmeDefs) (sepsOf readmeDefs) (str " ab12 x") = [(0, 1, 3)] := by decide +kernel

/-- A word of type 0 is a non-empty sequence of letters `a`…`z`, one of type 1 of digits. -/
def GoodWord (x : Nat × List Int) : Prop :=
  x.2 ≠ [] ∧ ((x.1 = 0 ∧ ∀ c ∈ x.2, 97 ≤ c ∧ c ≤ 122) ∨ (x.1 = 1 ∧ ∀ c ∈ x.2, 48 ≤ c ∧ c ≤ 57))

/-- A white-space character: space, tab, newline, form feed, carriage return. -/
def White (c : Int) : Prop := c = 32 ∨ c = 9 ∨ c = 10 ∨ c = 12 ∨ c = 13

/-- The words behind the first, each with one white-space character in front. -/
def tailText (ws : List (Int × Nat × List Int)) : List Int := ws.flatMap (fun x => x.1 :: x.2.2)

/-- Type and text of a token. -/
def typeAndText (q : List Int) (x : Nat × Nat × Nat) : Nat × List Int := (x.1, (q.drop x.2.1).take (x.2.2 - x.2.1))

theorem prefixLen_picks {s : Sq} (hr : (Alts.last true s).regular = true) (text : List Int) : prefixLen s text = ((s.picks text 0).head?).getD 0 := by
  have h := C49_ways_extend_picks (.last true s) hr text 0
  simp only [Alts.ways, Alts.picks, hatPicks, bne_self_eq_false, Bool.and_false, Bool.false_eq_true, if_false] at h
  rw [← h, List.head?_map]
  unfold prefixLen
  show (match (s.ways text 0 0 noCaps).head? with | none => 0 | some w => w.1) = _
  cases (s.ways text 0 0 noCaps).head? <;> rfl

theorem prefixLen_plus {a : Atom} (hr : (Alts.last true (.cons a (.plus .greedy) (.nil false))).regular = true) (text : List Int) :
    prefixLen (.cons a (.plus .greedy) (.nil false)) text = runLen a.set text := by
  rw [prefixLen_picks hr]
  have := loop_best a (.plus .greedy) rfl (by simp [Quant.mode]) text 0
  simp only [bestAt, Alts.picks, hatPicks, Bool.false_and, Bool.false_eq_true, if_false, runAt, Quant.lo, Quant.hi, List.drop_zero, Nat.zero_add] at this
  rw [this]
  split
  · rfl
  · simp; omega

theorem prefixLen_word (text : List Int) : prefixLen wordSq text = runLen (fun c => decide (97 ≤ c) && decide (c ≤ 122)) text := by
  rw [wordSq, prefixLen_plus (by decide +kernel)]
  congr 1
  funext c
  simp [Atom.set, listed, Item.test]

theorem prefixLen_number (text : List Int) : prefixLen numberSq text = runLen (fun c => decide (48 ≤ c) && decide (c ≤ 57)) text := by
  rw [numberSq, prefixLen_plus (by decide +kernel)]
  congr 1

theorem prefixLen_space {c : Int} (h : White c) (text : List Int) : prefixLen spaceSq (c :: text) = 1 := by
  rw [prefixLen_picks (by decide +kernel)]
  have hS : (Atom.esc 115).set c = true := by
    unfold White at h
    simp only [Atom.set, escape]
    rcases h with rfl | rfl | rfl | rfl | rfl <;> decide
  simp [spaceSq, Sq.picks, counts_once, runLen, hS]

theorem runLen_all {S : Int → Bool} {w more : List Int} (h1 : ∀ c ∈ w, S c = true) (h2 : ∀ c, more.head? = some c → S c = false) :
    runLen S (w ++ more) = w.length := by
  induction w with
  | nil =>
    cases more with
    | nil => rfl
    | cons c l => simp [runLen, h2 c rfl]
  | cons c w ih =>
    have := ih (fun x hx => h1 x (by simp [hx]))
    simp only [runLen, List.cons_append, List.takeWhile_cons, h1 c (by simp), if_true, List.length_cons] at this ⊢
    rw [this]

theorem runLen_none {S : Int → Bool} {w more : List Int} (h0 : w ≠ []) (h1 : ∀ c ∈ w, S c = false) : runLen S (w ++ more) = 0 := by
  cases w with
  | nil => exact absurd rfl h0
  | cons c w => simp [runLen, h1 c (by simp)]

theorem tokenAt_good {x : Nat × List Int} (h : GoodWord x) {more : List Int} (h2 : ∀ c, more.head? = some c → White c) :
    tokenAt (tokensOf readmeDefs) (x.2 ++ more) = some (x.1, x.2.length) := by
  obtain ⟨ty, w⟩ := x
  obtain ⟨h0, h⟩ := h
  simp only at h0 h ⊢
  have hl : 0 < w.length := List.length_pos_iff.2 h0
  have hd : tokensOf readmeDefs = [(0, wordSq), (1, numberSq)] := rfl
  simp only [hd, tokenAt, longest, List.map_cons, List.map_nil, List.foldr_cons, List.foldr_nil, List.find?_cons, List.find?_nil, prefixLen_word,
    prefixLen_number]
  rcases h with ⟨rfl, h⟩ | ⟨rfl, h⟩
  · rw [runLen_all (w := w) (fun c hc => by have := h c hc; simp; omega) (fun c hc => by have := h2 c hc; unfold White at this; simp; omega),
      runLen_none h0 (fun c hc => by have := h c hc; simp; omega)]
    simp; omega
  · rw [runLen_none h0 (fun c hc => by have := h c hc; simp; omega),
      runLen_all (w := w) (fun c hc => by have := h c hc; simp; omega) (fun c hc => by have := h2 c hc; unfold White at this; simp; omega)]
    have h1 : ¬ max 0 (max w.length 0) = 0 := by omega
    have h2 : max 0 (max w.length 0) = w.length := by omega
    have h3 : ((0 : Nat) == w.length) = false := by simp; omega
    rw [if_neg h1, h2, h3]
    simp

theorem tail_head {ws : List (Int × Nat × List Int)} (h : ∀ x ∈ ws, White x.1) (c : Int) (hc : (tailText ws).head? = some c) : White c := by
  cases ws with
  | nil => simp [tailText] at hc
  | cons x ws =>
    simp [tailText] at hc
    rw [← hc]
    exact h x (by simp)

theorem lex_tail : ∀ (ws : List (Int × Nat × List Int)), (∀ x ∈ ws, White x.1 ∧ GoodWord x.2) → ∀ (pre : List Int) (f : Nat), pre ≠ [] →
    (tailText ws).length ≤ f →
    (lexFrom (tokensOf readmeDefs) (sepsOf readmeDefs) (pre ++ tailText ws) f pre.length).map (typeAndText (pre ++ tailText ws)) = ws.map Prod.snd
  | [], _, pre, f, hp, hf => by
    cases f with
    | zero => rfl
    | succ f =>
      have hn : longest (sepsOf readmeDefs) [] = 0 := by decide +kernel
      have : pre.length ≠ 0 := by simpa using hp
      simp [tailText, lexFrom, hn, this]
  | (c, ty, w) :: ws, h, pre, f, hp, hf => by
    obtain ⟨hw, hg⟩ := h (c, ty, w) (by simp)
    have ht : tailText ((c, ty, w) :: ws) = c :: (w ++ tailText ws) := by simp [tailText]
    obtain ⟨f, rfl⟩ : ∃ f', f = f' + 1 := ⟨f - 1, by rw [ht] at hf; simp at hf; omega⟩
    have hn : longest (sepsOf readmeDefs) (c :: (w ++ tailText ws)) = 1 := by
      have : sepsOf readmeDefs = [spaceSq] := rfl
      simp [this, longest, prefixLen_space hw]
    have htok := tokenAt_good hg (more := tailText ws) (tail_head (fun x hx => (h x (List.mem_cons_of_mem _ hx)).1))
    simp only at htok
    rw [ht]
    have ed : (pre ++ c :: (w ++ tailText ws)).drop pre.length = c :: (w ++ tailText ws) := by simp
    have ed1 : (pre ++ c :: (w ++ tailText ws)).drop (pre.length + 1) = w ++ tailText ws := by
      rw [show pre ++ c :: (w ++ tailText ws) = (pre ++ [c]) ++ (w ++ tailText ws) by simp,
        show pre.length + 1 = (pre ++ [c]).length by simp, List.drop_left]
    simp only [lexFrom, ed, hn]
    rw [if_neg (by omega), ed1, htok]
    have ih := lex_tail ws (fun x hx => h x (by simp [hx])) (pre ++ c :: w) f (by simp) (by rw [ht] at hf; simp at hf; omega)
    have e1 : (pre ++ c :: w).length = pre.length + 1 + w.length := by simp; omega
    have e2 : pre ++ c :: (w ++ tailText ws) = pre ++ c :: w ++ tailText ws := by simp
    rw [e1, ← e2] at ih
    simp only [List.map_cons, ih]
    congr 1
    simp only [typeAndText, ed1]
    rw [show pre.length + 1 + w.length - (pre.length + 1) = w.length by omega, List.take_left]

/-- **C58, the tokenizer of the README.** Words of letters and words of digits, joined by single white-space characters, are taken apart again: for every
non-empty list of words the loop visits exactly these words, in this order, with the type of each. -/
theorem C58_words_and_numbers : ∃ d, splitDefs [.inl (0, str "[a-z]+"), .inl (1, str "\\d+"), .inr (str "\\s")] = some d ∧
    ∀ (w : Nat × List Int) (ws : List (Int × Nat × List Int)), GoodWord w → (∀ x ∈ ws, White x.1 ∧ GoodWord x.2) →
      ∀ (cx : Ctx), cx.query = w.2 ++ tailText ws → cx.query.length < 4294967295 → ∀ (fuel : Nat), cx.query.length ≤ fuel →
        ∃ (it : TokIt) (toks : List (Nat × Nat × Nat)), TokIt.make cx fuel d = some it ∧
          TokIt.visit cx fuel d cx.query.length it = some (toks.map tok, true) ∧
          toks.map (typeAndText cx.query) = w :: ws.map Prod.snd := by
  obtain ⟨h1, h2, h3⟩ := readme_ok
  obtain ⟨d, hd, h⟩ := C57_tokenizer_partial readmeDefs h1 h2
  rw [readme_spelled] at hd
  refine ⟨d, hd, fun w ws hw hws cx hq hlen fuel hf => ?_⟩
  have inr : ∀ c : Int, 0 ≤ c → c ≤ 127 → c ∈ allChars := by
    intro c h1 h2
    simp only [allChars, List.mem_map, List.mem_range]
    exact ⟨(c + 128).toNat, by omega, by omega⟩
  have good : ∀ x, GoodWord x → ∀ c ∈ x.2, c ∈ allChars := by
    intro x hx c hc
    rcases hx.2 with ⟨_, h⟩ | ⟨_, h⟩ <;> (have := h c hc; exact inr c (by omega) (by omega))
  have hall : ∀ c ∈ cx.query, c ∈ allChars := by
    rw [hq]
    intro c hc
    rcases List.mem_append.1 hc with hc | hc
    · exact good w hw c hc
    · simp only [tailText, List.mem_flatMap] at hc
      obtain ⟨x, hx, hc⟩ := hc
      rcases List.mem_cons.1 hc with rfl | hc
      · have := (hws x hx).1; unfold White at this; exact inr _ (by omega) (by omega)
      · exact good _ (hws x hx).2 c hc
  obtain ⟨it, e1, e2⟩ := h cx hall hlen (fun hh => absurd hh h3) fuel hf
  refine ⟨it, _, e1, e2 _ (Nat.le_refl _), ?_⟩
  have h0 : w.2 ≠ [] := hw.1
  have hl : 0 < w.2.length := List.length_pos_iff.2 h0
  have htok := tokenAt_good hw (more := tailText ws) (tail_head (fun x hx => (hws x hx).1))
  simp only [lex, hq]
  obtain ⟨f, hfl⟩ : ∃ f, (w.2 ++ tailText ws).length = f + 1 := ⟨(w.2 ++ tailText ws).length - 1, by simp; omega⟩
  have hn : longest (sepsOf readmeDefs) (w.2 ++ tailText ws) = 0 := by
    have : sepsOf readmeDefs = [spaceSq] := rfl
    obtain ⟨c, w', hcw⟩ : ∃ c w', w.2 = c :: w' := by
      cases hw2 : w.2 with
      | nil => exact absurd hw2 h0
      | cons c w' => exact ⟨c, w', rfl⟩
    have hc : (97 ≤ c ∧ c ≤ 122) ∨ (48 ≤ c ∧ c ≤ 57) := by
      rcases hw.2 with ⟨_, h⟩ | ⟨_, h⟩
      · exact Or.inl (h c (by simp [hcw]))
      · exact Or.inr (h c (by simp [hcw]))
    have hS : (Atom.esc 115).set c = false := by
      simp only [Atom.set, escape]
      simp; omega
    simp only [this, longest, List.foldr_cons, List.foldr_nil, hcw, List.cons_append]
    rw [prefixLen_picks (by decide +kernel)]
    simp [spaceSq, Sq.picks, counts_once, runLen, hS]
  rw [hfl]
  simp only [lexFrom, List.drop_zero, hn, ne_eq, not_true, and_false, if_false, Nat.zero_add, Nat.add_zero]
  rw [htok]
  simp only [Nat.zero_add]
  have ih := lex_tail ws hws w.2 f h0 (by simp at hfl; omega)
  simp only [List.map_cons, ih]
  congr 1
  simp [typeAndText]

/-- The hypotheses of `C58_words_and_numbers` are met by `abc 12<newline>x`. -/
example : GoodWord (0, str "abc") ∧ White 32 ∧ GoodWord (1, str "12") ∧ White 10 ∧ GoodWord (0, str "x") ∧
    str "abc" ++ tailText [(32, 1, str "12"), (10, 0, str "x")] = str "abc 12\nx" := by
  unfold GoodWord White
  decide +kernel
example : runTokens (readmeDefs.map spelled) "abc 12\nx" = some ([⟨some (0, 3), 0⟩, ⟨some (4, 6), 1⟩, ⟨some (7, 8), 0⟩], true) := by decide +kernel

/-! ## a larger example -/

private def word (w : String) : Sq := plain (str w)
/-- `(?:if|else|while)`, `[a-z_]\w*`, `\d+`, `[+*=<]`, `"[^"]*"`; separators `\s+`, `#[^!]*!`. -/
def langDefs : List ((Nat × Sq) ⊕ Sq) :=
  [.inl (0, .cons (.group false (.more false (word "if") (.more false (word "else") (.last false (word "while"))))) .once (.nil false)),
   .inl (1, .cons (.cls false [.rng 97 122, .chr 95] false) .once (.cons (.esc 119) (.star .greedy) (.nil false))),
   .inl (2, .cons (.esc 100) (.plus .greedy) (.nil false)),
   .inl (3, .cons (.cls false [.chr 43, .chr 42, .chr 61, .chr 60] false) .once (.nil false)),
   .inl (4, .cons (.chr 34) .once (upTo 34)),
   .inr (.cons (.esc 115) (.plus .greedy) (.nil false)),
   .inr (.cons (.chr 35) .once (upTo 33))]
example : langDefs.map spelled = [.inl (0, str "(?:if|else|while)"), .inl (1, str "[a-z_]\\w*"), .inl (2, str "\\d+"), .inl (3, str "[+*=<]"),
    .inl (4, str "\"[^\"]*\""), .inr (str "\\s+"), .inr (str "#[^!]*!")] := by decide +kernel
/-- It meets the hypotheses of C57. -/
example : (∀ x ∈ langDefs, (Alts.last true (seqOf x)).capRegular = true) ∧ (∀ x ∈ langDefs, ∀ c ∈ (seqOf x).spell, c ∈ allChars) := by decide +kernel
/-- Keywords win over identifiers of the same length, longer identifiers win over keywords. -/
example : lex (tokensOf langDefs) (sepsOf langDefs) (str "while iffy < 12#rem!\"a b\"") =
    [(0, 0, 5), (1, 6, 10), (3, 11, 12), (2, 13, 15), (4, 20, 25)] := by decide +kernel
example : runTokens (langDefs.map spelled) "while iffy < 12#rem!\"a b\"" =
    some ([⟨some (0, 5), 0⟩, ⟨some (6, 10), 1⟩, ⟨some (11, 12), 3⟩, ⟨some (13, 15), 2⟩, ⟨some (20, 25), 4⟩], true) := by decide +kernel

end ERegex.Props

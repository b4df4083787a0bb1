import Verif.Proofs.Plant
import Verif.Spec.Malformed
/-!
# What the tree builder accepts: every token outside `[…]` and `{…}` is looked at
-/
set_option autoImplicit false
namespace ERegex
open Spec

/-- The token sequences the tree builder can get through (necessary conditions).  The flag tells whether something
precedes that a quantifier could repeat. -/
inductive Passes : Bool → List Tok → Prop
  | nil : Passes true []
  | tok {b x tl} : x ≠ [40] → x ≠ [91] → x ≠ [123] → (b = false → x ≠ [42] ∧ x ≠ [43] ∧ x ≠ [63]) → terminalOf x ≠ none →
      Passes true tl → Passes b (x :: tl)
  | bound {tl c r} : extractT 123 125 tl = some (c, r) → (∀ m p, quantifiedNode m c p ≠ none) → Passes true r → Passes true ([123] :: tl)
  | cls {b tl c r} : extractT 91 93 tl = some (c, r) → classNode c ≠ none → (∀ tl', tl ≠ [94] :: tl') → Passes true r → Passes b ([91] :: tl)
  | ncls {b tl c r} : extractT 91 93 tl = some (c, r) → classNode c ≠ none → Passes true r → Passes b ([91] :: [94] :: tl)
  | group {b tl c r} : extractT 40 41 tl = some (c, r) → (∀ tl', tl ≠ [63] :: [58] :: tl') → (∀ p ∈ splitT 124 c, Passes false p) →
      Passes true r → Passes b ([40] :: tl)
  | quiet {b tl c r} : extractT 40 41 tl = some (c, r) → (∀ p ∈ splitT 124 c, Passes false p) →
      Passes true r → Passes b ([40] :: [63] :: [58] :: tl)

theorem buildAll_mem {h : List Tok → Option Node} : ∀ {bs : List (List Tok)} {r : List Node}, buildAll h bs = some r →
    ∀ b ∈ bs, ∃ t, h b = some t
  | [], _, _, b, hb => by simp at hb
  | x :: bs, r, e, b, hb => by
    simp only [buildAll] at e
    split at e
    · simp at e
    · rename_i t ht
      rcases List.mem_cons.1 hb with rfl | hb
      · exact ⟨t, ht⟩
      · cases hr : buildAll h bs with
        | none => simp [hr] at e
        | some r' => exact buildAll_mem hr b hb

theorem quantifiedNode_any {m : Node} {c : List Tok} {p : Policy} {n : Node} (h : quantifiedNode m c p = some n) :
    ∀ m' p', quantifiedNode m' c p' ≠ none := by
  intro m' p'
  unfold quantifiedNode at h ⊢
  split at h
  · simp only [Option.map_eq_some_iff] at h; obtain ⟨a, h, _⟩ := h; simp [h]
  · simp only [Option.map_eq_some_iff] at h; obtain ⟨a, h, _⟩ := h; simp [h]
  · split at h
    · rename_i h1 h2; simp
    · simp at h
  · simp at h

theorem quantifiedNode_hex {d : Tok} (h : d ≠ []) (m : Node) (p : Policy) : quantifiedNode m [d] p ≠ none := by
  simp [quantifiedNode, packStringToNumber, h]

theorem terminalOf_one (c : Int) : terminalOf [c] ≠ none := by
  unfold terminalOf; split <;> simp_all

theorem items_policy {r : List Tok} (h : Passes true (policyOf r).2) : Passes true r := by
  unfold policyOf at h
  split at h
  · exact .tok (by decide) (by decide) (by decide) (by simp) (by decide) h
  · exact .tok (by decide) (by decide) (by decide) (by simp) (by decide) h
  · exact h

theorem isOctal_plain {c : Int} (h : isOctal c = true) : c ≠ 40 ∧ c ≠ 91 ∧ c ≠ 123 ∧ c ≠ 42 ∧ c ≠ 43 ∧ c ≠ 63 := by
  simp [isOctal] at h; omega

theorem isHex_plain {c : Int} (h : isHex c = true) : c ≠ 40 ∧ c ≠ 91 ∧ c ≠ 123 ∧ c ≠ 42 ∧ c ≠ 43 := by
  simp [isHex] at h; omega

theorem items_single {c : Int} {tl : List Tok} (h1 : c ≠ 40) (h2 : c ≠ 91) (h3 : c ≠ 123) (h : Passes true tl) : Passes true ([c] :: tl) :=
  .tok (by simpa using h1) (by simpa using h2) (by simpa using h3) (by simp) (terminalOf_one c) h

theorem octalHead_items {h : Tok} {tl : List Tok} {v r} (e : classify.octalHead h tl = some (v, r)) (hr : Passes true r) :
    ∃ a, h = [92, a] ∧ isOctal a = true ∧ Passes true tl := by
  unfold classify.octalHead at e
  split at e
  · split at e
    · rename_i a b c tl hc
      simp only [Option.some.injEq, Prod.mk.injEq] at e
      simp only [Bool.and_eq_true] at hc
      obtain ⟨⟨ha, hb⟩, hc⟩ := hc
      have hb := isOctal_plain hb
      have hc := isOctal_plain hc
      exact ⟨a, rfl, ha, items_single hb.1 hb.2.1 hb.2.2.1 (items_single hc.1 hc.2.1 hc.2.2.1 (e.2 ▸ hr))⟩
    · simp at e
  · simp at e

theorem hexHead_items {h : Tok} {tl : List Tok} {v r} (e : classify.hexHead h tl = some (v, r)) (hr : Passes true r) :
    h = [92, 120] ∧ Passes true tl := by
  unfold classify.hexHead at e
  split at e
  · rename_i a b tl
    split at e
    · rename_i hc
      simp only [Option.some.injEq, Prod.mk.injEq] at e
      simp only [Bool.and_eq_true] at hc
      have ha := isHex_plain hc.1
      have hb := isHex_plain hc.2
      exact ⟨rfl, items_single ha.1 ha.2.1 ha.2.2.1 (items_single hb.1 hb.2.1 hb.2.2.1 (e.2 ▸ hr))⟩
    · split at e
      · rename_i ha
        simp only [Option.some.injEq, Prod.mk.injEq] at e
        have ha := isHex_plain ha
        exact ⟨rfl, items_single ha.1 ha.2.1 ha.2.2.1 (e.2 ▸ hr)⟩
      · simp at e
  · split at e
    · rename_i ha
      simp only [Option.some.injEq, Prod.mk.injEq] at e
      have ha := isHex_plain ha
      exact ⟨rfl, items_single ha.1 ha.2.1 ha.2.2.1 (e.2 ▸ hr)⟩
    · simp at e
  · simp at e

theorem terminalOf_octal {a : Int} (h : isOctal a = true) : terminalOf [92, a] ≠ none := by
  simp [isOctal] at h
  unfold terminalOf
  split <;> simp_all

/-- The rest of the tokens a step leaves, and how to get from it to the whole. -/
theorem helper_items : ∀ (f : Nat) (last : Option Node) (ts : List Tok) (gi : Nat) (t : Node), helper f last ts gi = some t →
    Passes last.isSome ts
  | 0, _, _, _, _, h => by simp [helper] at h
  | f + 1, last, ts, gi, t, h => by
    have key : ∀ (n : Node) (b : Nat) (rest : List Tok), (helper f (some n) rest b).bind (addChild last) = some t → Passes true rest := by
      intro n b rest e
      cases hh : helper f (some n) rest b with
      | none => simp [hh] at e
      | some x => exact helper_items f (some n) rest b x hh
    simp only [helper] at h
    generalize hcl : classify last.isNone ts = st at h
    unfold classify at hcl
    split at hcl
    · subst hcl; simp only at h; subst h; exact .nil
    · split at hcl
      · subst hcl; simp at h
      · rename_i c r hx; subst hcl; simp only at h
        cases hb : buildAll (fun b => helper f none b gi) (splitT 124 c) with
        | none => simp [hb] at h
        | some bs =>
          simp only [hb, Option.bind_some] at h
          exact .quiet hx (fun p hp => by obtain ⟨t, ht⟩ := buildAll_mem hb p hp; exact helper_items f none p gi t ht) (key _ _ _ h)
    · rename_i tl hne
      split at hcl
      · subst hcl; simp at h
      · rename_i c r hx; subst hcl; simp only at h
        cases hb : buildAll (fun b => helper f none b (gi + 1)) (splitT 124 c) with
        | none => simp [hb] at h
        | some bs =>
          simp only [hb, Option.bind_some] at h
          exact .group hx (fun tl' e => hne tl' (by rw [e])) (fun p hp => by obtain ⟨t, ht⟩ := buildAll_mem hb p hp; exact helper_items f none p (gi + 1) t ht) (key _ _ _ h)
    · split at hcl
      · subst hcl; simp at h
      · rename_i c r hx
        split at hcl
        · subst hcl; simp at h
        · rename_i n hn; subst hcl; exact .ncls hx (by simp [hn]) (key _ _ _ h)
    · rename_i tl hne
      split at hcl
      · subst hcl; simp at h
      · rename_i c r hx
        split at hcl
        · subst hcl; simp at h
        · rename_i n hn; subst hcl; exact .cls hx (by simp [hn]) (fun tl' e => hne tl' (by rw [e])) (key _ _ _ h)
    · split at hcl
      · subst hcl; simp at h
      · rename_i c r hx; subst hcl; simp only at h
        cases last with
        | none => simp at h
        | some m =>
          simp only at h
          cases hq : quantifiedNode m c (policyOf r).1 with
          | none => simp [hq] at h
          | some n =>
            simp only [hq, Option.bind_some] at h
            exact .bound hx (quantifiedNode_any hq) (items_policy (helper_items f _ _ _ _ h))
    · subst hcl; simp only at h
      cases last with
      | none => simp at h
      | some m => simp only [Option.bind_some] at h; exact items_single (by decide) (by decide) (by decide) (items_policy (helper_items f _ _ _ _ h))
    · subst hcl; simp only at h
      cases last with
      | none => simp at h
      | some m => simp only [Option.bind_some] at h; exact items_single (by decide) (by decide) (by decide) (items_policy (helper_items f _ _ _ _ h))
    · subst hcl; simp only at h
      cases last with
      | none => simp at h
      | some m => simp only [Option.bind_some] at h; exact items_single (by decide) (by decide) (by decide) (items_policy (helper_items f _ _ _ _ h))
    · exact .tok (by decide) (by decide) (by decide) (by simp) (by decide) .nil
    · split at hcl
      · rename_i d r hx
        split at hcl
        · subst hcl; simp at h
        · rename_i hn
          subst hcl; exact .tok (by decide) (by decide) (by decide) (by simp) (by decide) (.bound hx (quantifiedNode_hex (by
            rintro rfl; simp [hexToBin, octalToBin, exactNode] at hn)) (key _ _ _ h))
      · subst hcl; simp at h
    · split at hcl
      · rename_i d r hx
        split at hcl
        · subst hcl; simp at h
        · rename_i hn
          subst hcl; exact .tok (by decide) (by decide) (by decide) (by simp) (by decide) (.bound hx (quantifiedNode_hex (by
            rintro rfl; simp [hexToBin, octalToBin, exactNode] at hn)) (key _ _ _ h))
      · subst hcl; simp at h
    · rename_i x tl hx1 hx2 hx3 hx4 hx5 hx6 hx7 hx8 hx9 hx10 hx11
      have n1 : x ≠ [40] := by rintro rfl; first | exact hx2 tl rfl | simp_all
      have n2 : x ≠ [91] := by rintro rfl; simp_all
      have n3 : x ≠ [123] := by rintro rfl; simp_all
      have n4 : x ≠ [42] ∧ x ≠ [43] ∧ x ≠ [63] := by refine ⟨?_, ?_, ?_⟩ <;> rintro rfl <;> simp_all
      split at hcl
      · subst hcl; rename_i h0; simp only at h
        exact .tok n1 n2 n3 (fun _ => n4) (by rw [h0.1]; decide) (helper_items f _ _ _ _ h)
      · split at hcl
        · rename_i ho; subst hcl
          obtain ⟨a, ha, ha', hi⟩ := octalHead_items ho (key _ _ _ h)
          exact .tok n1 n2 n3 (fun _ => n4) (ha ▸ terminalOf_octal ha') hi
        · split at hcl
          · rename_i ho; subst hcl
            obtain ⟨ha, hi⟩ := hexHead_items ho (key _ _ _ h)
            exact .tok n1 n2 n3 (fun _ => n4) (ha ▸ by decide) hi
          · split at hcl
            · subst hcl; simp at h
            · rename_i ht; subst hcl
              exact .tok n1 n2 n3 (fun _ => n4) (by simp [ht]) (key _ _ _ h)

/-! ## the outline of a token sequence -/

/-- A token that is neither a bracket nor `|`. -/
def Calm (t : Tok) : Prop := NoBracket t ∧ t ≠ [124]

/-- `ts` has the outline `s`. -/
inductive Out : List Tok → List Int → Prop
  | nil : Out [] []
  | plain {c ts s} : c ≠ 91 → c ≠ 123 → c ≠ 92 → Out ts s → Out ([c] :: ts) (c :: s)
  | slash {ts s} : Out ts s → Out ([92] :: ts) (97 :: s)
  | esc {c ts s} : Out ts s → Out ([92, c] :: ts) (97 :: s)
  | cls {b ts s} : (∀ t ∈ b, Calm t) → Out ts s → Out ([91] :: (b ++ [93] :: ts)) (97 :: s)
  | bound {b ts s} : (∀ t ∈ b, Calm t) → Out ts s → Out ([123] :: (b ++ [125] :: ts)) (42 :: s)

theorem calm_single {c : Int} (h : ¬ (c = 40 ∨ c = 41 ∨ c = 124 ∨ c = 91 ∨ c = 93 ∨ c = 123 ∨ c = 125)) : Calm [c] := by
  refine ⟨?_, by simp; omega⟩
  intro o cl hb
  cases hb <;> simp <;> omega

theorem calm_pair (a b : Int) : Calm [a, b] := by
  refine ⟨?_, by simp⟩
  intro o cl hb
  cases hb <;> simp

/-- A piece of a bound is calm. -/
theorem calm_sub {u t : List Int} (hu : ∀ c ∈ u, ¬ (c = 40 ∨ c = 41 ∨ c = 124 ∨ c = 91 ∨ c = 93 ∨ c = 123 ∨ c = 125))
    (h : ∀ c ∈ t, c ∈ u) : Calm t := by
  refine ⟨?_, ?_⟩
  · intro o cl hb
    cases hb <;> refine ⟨?_, ?_⟩ <;> rintro rfl <;> exact hu _ (h _ (List.mem_singleton.2 rfl)) (by decide)
  · rintro rfl; exact hu _ (h _ (List.mem_singleton.2 rfl)) (by decide)

theorem out_bound {u p : List Int} {ts : List Tok} {s : List Int} (hu : ∀ c ∈ u, ¬ (c = 40 ∨ c = 41 ∨ c = 124 ∨ c = 91 ∨ c = 93 ∨ c = 123 ∨ c = 125))
    (ht : Tokens p ts) (ho : Out ts s) : ∃ ts', Tokens (123 :: (u ++ 125 :: p)) ts' ∧ Out ts' (42 :: s) := by
  have h5 : (125 : Int) ∉ u := fun h => hu _ h (by simp)
  by_cases hc : (44 : Int) ∈ u
  · obtain ⟨a, b, rfl, ha⟩ : ∃ a b, u = a ++ 44 :: b ∧ (44 : Int) ∉ a := by
      clear h5 hu
      induction u with
      | nil => simp at hc
      | cons x u ih =>
        by_cases hx : x = 44
        · exact ⟨[], u, by simp [hx], by simp⟩
        · obtain ⟨a, b, e, h⟩ := ih (by simpa [Ne.symm hx] using hc)
          exact ⟨x :: a, b, by simp [e], by simp [h]; omega⟩
    have h5a : (125 : Int) ∉ a := fun h => h5 (by simp [h])
    have h5b : (125 : Int) ∉ b := fun h => h5 (by simp [h])
    by_cases hb : b = []
    · subst hb
      refine ⟨_, by simpa using Tokens.brace2 h5a ha ht, ?_⟩
      exact Out.bound (b := [a, [44]]) (by
        intro t ht
        simp at ht
        rcases ht with rfl | rfl
        · exact calm_sub hu (fun c h => by simp [h])
        · exact calm_single (by decide)) ho
    · refine ⟨_, by simpa using Tokens.brace3 h5a ha hb h5b ht, ?_⟩
      exact Out.bound (b := [a, [44], b]) (by
        intro t ht
        simp at ht
        rcases ht with rfl | rfl | rfl
        · exact calm_sub hu (fun c h => by simp [h])
        · exact calm_single (by decide)
        · exact calm_sub hu (fun c h => by simp [h])) ho
  · exact ⟨_, .brace1 h5 hc ht, Out.bound (b := [u]) (by
      intro t ht
      simp at ht
      rw [ht]; exact calm_sub hu (fun c h => h)) ho⟩

/-- The scan of the characters agrees with the outline of the tokens. -/
theorem outline_tokens : ∀ (n : Nat) (p : List Int), p.length ≤ n →
    (∀ s, outline .outside p = some s → ∃ ts, Tokens p ts ∧ Out ts s) ∧
    (∀ s, outline .inClass p = some s → ∃ b ts s', Tokens p (b ++ [93] :: ts) ∧ (∀ t ∈ b, Calm t) ∧ Out ts s' ∧ s = 97 :: s') ∧
    (∀ s, outline .inBound p = some s → ∃ u p' ts s', p = u ++ 125 :: p' ∧
      (∀ c ∈ u, ¬ (c = 40 ∨ c = 41 ∨ c = 124 ∨ c = 91 ∨ c = 93 ∨ c = 123 ∨ c = 125)) ∧ Tokens p' ts ∧ Out ts s' ∧ s = 42 :: s')
  | n, [], _ => by
    refine ⟨?_, ?_, ?_⟩
    · intro s h; simp [outline] at h; subst h; exact ⟨[], .nil, .nil⟩
    · intro s h; simp [outline] at h
    · intro s h; simp [outline] at h
  | 0, _ :: _, h => by simp at h
  | n + 1, c :: p, hl => by
    have hl' : p.length ≤ n := by simpa using hl
    have ih := outline_tokens n p hl'
    refine ⟨?_, ?_, ?_⟩
    · intro s h
      by_cases h92 : c = 92
      · subst h92
        cases p with
        | nil => simp [outline] at h; subst h; exact ⟨_, .trailing, .slash .nil⟩
        | cons d p =>
          simp only [outline, Option.map_eq_some_iff] at h
          obtain ⟨s', h1, rfl⟩ := h
          obtain ⟨ts, h2, h3⟩ := (outline_tokens n p (by simp at hl'; omega)).1 s' h1
          exact ⟨_, .escaped h2, .esc h3⟩
      · by_cases h91 : c = 91
        · subst h91
          simp [outline] at h
          obtain ⟨b, ts, s', h1, h2, h3, rfl⟩ := ih.2.1 s h
          exact ⟨_, .plain (by decide) (by decide) h1, .cls h2 h3⟩
        · by_cases h123 : c = 123
          · subst h123
            simp [outline] at h
            obtain ⟨u, p', ts, s', rfl, h1, h2, h3, rfl⟩ := ih.2.2 s h
            exact out_bound h1 h2 h3
          · rw [outline.eq_4 _ _ (by intro h; exact absurd h h92) (by intro d p' h; exact absurd h h92)] at h
            simp only [h91, h123, if_false, Option.map_eq_some_iff] at h
            obtain ⟨s', h1, rfl⟩ := h
            obtain ⟨ts, h2, h3⟩ := ih.1 s' h1
            exact ⟨_, .plain h92 h123 h2, .plain h91 h123 h92 h3⟩
    · intro s h
      by_cases h92 : c = 92
      · subst h92
        cases p with
        | nil => simp [outline] at h
        | cons d p =>
          simp only [outline] at h
          obtain ⟨b, ts, s', h1, h2, h3, h4⟩ := (outline_tokens n p (by simp at hl'; omega)).2.1 s h
          refine ⟨[92, d] :: b, ts, s', .escaped h1, ?_, h3, h4⟩
          intro t ht
          rcases List.mem_cons.1 ht with rfl | ht
          · exact calm_pair _ _
          · exact h2 t ht
      · rw [outline.eq_8 _ _ (by intro h; exact absurd h h92) (by intro d p' h; exact absurd h h92)] at h
        split at h
        · rename_i hc; subst hc
          simp only [Option.map_eq_some_iff] at h
          obtain ⟨s', h1, rfl⟩ := h
          obtain ⟨ts, h2, h3⟩ := ih.1 s' h1
          exact ⟨[], ts, s', .plain (by decide) (by decide) h2, by simp, h3, rfl⟩
        · rename_i h93
          split at h
          · simp at h
          · rename_i hn
            obtain ⟨b, ts, s', h1, h2, h3, h4⟩ := ih.2.1 s h
            refine ⟨[c] :: b, ts, s', .plain h92 (by omega) h1, ?_, h3, h4⟩
            intro t ht
            rcases List.mem_cons.1 ht with rfl | ht
            · exact calm_single (by omega)
            · exact h2 t ht
    · intro s h
      simp only [outline] at h
      split at h
      · rename_i hc; subst hc
        simp only [Option.map_eq_some_iff] at h
        obtain ⟨s', h1, rfl⟩ := h
        obtain ⟨ts, h2, h3⟩ := ih.1 s' h1
        exact ⟨[], p, ts, s', rfl, by simp, h2, h3, rfl⟩
      · rename_i h125
        split at h
        · simp at h
        · rename_i hn
          obtain ⟨u, p', ts, s', rfl, h1, h2, h3, h4⟩ := ih.2.2 s h
          refine ⟨c :: u, p', ts, s', rfl, ?_, h2, h3, h4⟩
          intro x hx
          rcases List.mem_cons.1 hx with rfl | hx
          · omega
          · exact h1 x hx

/-! ## cutting outlines -/

/-- Cut an outline at a `)` or a `|`. -/
theorem out_cut {x : Int} (hx : x = 41 ∨ x = 124) : ∀ {u v : List Tok} {s : List Int}, Out (u ++ [x] :: v) s →
    ∃ su sv, Out u su ∧ Out v sv ∧ s = su ++ x :: sv := by
  intro u v s h
  generalize hw : u ++ [x] :: v = w at h
  induction h generalizing u with
  | nil => simp at hw
  | @plain c ts s h1 h2 h3 ho ih =>
    cases u with
    | nil => simp at hw; obtain ⟨rfl, rfl⟩ := hw; exact ⟨[], s, .nil, ho, rfl⟩
    | cons y u =>
      simp at hw
      obtain ⟨rfl, hw⟩ := hw
      obtain ⟨su, sv, a, b, rfl⟩ := ih hw
      exact ⟨c :: su, sv, .plain h1 h2 h3 a, b, rfl⟩
  | @slash ts s ho ih =>
    cases u with
    | nil => simp at hw; omega
    | cons y u =>
      simp at hw
      obtain ⟨rfl, hw⟩ := hw
      obtain ⟨su, sv, a, b, rfl⟩ := ih hw
      exact ⟨97 :: su, sv, .slash a, b, rfl⟩
  | @esc c ts s ho ih =>
    cases u with
    | nil => simp at hw
    | cons y u =>
      simp at hw
      obtain ⟨rfl, hw⟩ := hw
      obtain ⟨su, sv, a, b, rfl⟩ := ih hw
      exact ⟨97 :: su, sv, .esc a, b, rfl⟩
  | @cls b ts s hb ho ih =>
    cases u with
    | nil => simp at hw; omega
    | cons y u =>
      simp only [List.cons_append, List.cons.injEq] at hw
      obtain ⟨rfl, hw⟩ := hw
      rcases List.append_eq_append_iff.1 hw with ⟨w, e1, e2⟩ | ⟨w, e1, e2⟩
      · exfalso
        cases w with
        | nil => simp at e2; omega
        | cons z w =>
          simp at e2
          have := hb [x] (by rw [e1, ← e2.1]; simp)
          rcases hx with rfl | rfl
          · exact (this.1 _ _ .round).2 rfl
          · exact this.2 rfl
      · cases w with
        | nil => simp at e2; omega
        | cons z w =>
          simp at e2
          obtain ⟨rfl, e2⟩ := e2
          obtain ⟨su, sv, a, b', rfl⟩ := ih e2.symm
          exact ⟨97 :: su, sv, by rw [e1]; exact .cls hb a, b', rfl⟩
  | @bound b ts s hb ho ih =>
    cases u with
    | nil => simp at hw; omega
    | cons y u =>
      simp only [List.cons_append, List.cons.injEq] at hw
      obtain ⟨rfl, hw⟩ := hw
      rcases List.append_eq_append_iff.1 hw with ⟨w, e1, e2⟩ | ⟨w, e1, e2⟩
      · exfalso
        cases w with
        | nil => simp at e2; omega
        | cons z w =>
          simp at e2
          have := hb [x] (by rw [e1, ← e2.1]; simp)
          rcases hx with rfl | rfl
          · exact (this.1 _ _ .round).2 rfl
          · exact this.2 rfl
      · cases w with
        | nil => simp at e2; omega
        | cons z w =>
          simp at e2
          obtain ⟨rfl, e2⟩ := e2
          obtain ⟨su, sv, a, b', rfl⟩ := ih e2.symm
          exact ⟨42 :: su, sv, by rw [e1]; exact .bound hb a, b', rfl⟩

/-- Prefixes of the outline come from prefixes of the tokens. -/
theorem out_prefix {ts : List Tok} {s : List Int} (h : Out ts s) : ∀ {a b : List Int}, s = a ++ b →
    ∃ a' b', ts = a' ++ b' ∧ Out a' a ∧ Out b' b := by
  induction h with
  | nil => intro a b e; obtain ⟨rfl, rfl⟩ : a = [] ∧ b = [] := by simpa using e.symm
           exact ⟨[], [], rfl, .nil, .nil⟩
  | @plain c ts s h1 h2 h3 ho ih =>
    intro a b e
    cases a with
    | nil => simp at e; subst e; exact ⟨[], _, rfl, .nil, .plain h1 h2 h3 ho⟩
    | cons y a => simp at e; obtain ⟨rfl, e⟩ := e; obtain ⟨a', b', rfl, p, q⟩ := ih e; exact ⟨_ :: a', b', rfl, .plain h1 h2 h3 p, q⟩
  | @slash ts s ho ih =>
    intro a b e
    cases a with
    | nil => simp at e; subst e; exact ⟨[], _, rfl, .nil, .slash ho⟩
    | cons y a => simp at e; obtain ⟨rfl, e⟩ := e; obtain ⟨a', b', rfl, p, q⟩ := ih e; exact ⟨_ :: a', b', rfl, .slash p, q⟩
  | @esc c ts s ho ih =>
    intro a b e
    cases a with
    | nil => simp at e; subst e; exact ⟨[], _, rfl, .nil, .esc ho⟩
    | cons y a => simp at e; obtain ⟨rfl, e⟩ := e; obtain ⟨a', b', rfl, p, q⟩ := ih e; exact ⟨_ :: a', b', rfl, .esc p, q⟩
  | @cls w ts s hb ho ih =>
    intro a b e
    cases a with
    | nil => simp at e; subst e; exact ⟨[], _, rfl, .nil, .cls hb ho⟩
    | cons y a =>
      simp at e; obtain ⟨rfl, e⟩ := e; obtain ⟨a', b', rfl, p, q⟩ := ih e
      exact ⟨[91] :: (w ++ [93] :: a'), b', by simp, .cls hb p, q⟩
  | @bound w ts s hb ho ih =>
    intro a b e
    cases a with
    | nil => simp at e; subst e; exact ⟨[], _, rfl, .nil, .bound hb ho⟩
    | cons y a =>
      simp at e; obtain ⟨rfl, e⟩ := e; obtain ⟨a', b', rfl, p, q⟩ := ih e
      exact ⟨[123] :: (w ++ [125] :: a'), b', by simp, .bound hb p, q⟩

/-- Nesting depth of parentheses in an outline. -/
def deep (s : List Int) : Int := (s.count 40 : Int) - (s.count 41 : Int)

theorem deep_nil : deep [] = 0 := rfl
theorem deep_cons (c : Int) (s : List Int) : deep (c :: s) = (if c = 40 then 1 else if c = 41 then -1 else 0) + deep s := by
  simp only [deep, List.count_cons, beq_iff_eq]
  by_cases h1 : c = 40
  · subst h1; simp; omega
  · by_cases h2 : c = 41
    · subst h2; simp; omega
    · simp [h1, h2]
theorem deep_append (a b : List Int) : deep (a ++ b) = deep a + deep b := by simp [deep, List.count_append]; omega

theorem depth_calm {b : List Tok} (h : ∀ t ∈ b, Calm t) {op cl : Int} (hb : Bracket [op] [cl]) : depth op cl b = 0 := by
  have h1 : [op] ∉ b := fun hm => ((h _ hm).1 _ _ hb).1 rfl
  have h2 : [cl] ∉ b := fun hm => ((h _ hm).1 _ _ hb).2 rfl
  simp [depth, List.count_eq_zero_of_not_mem h1, List.count_eq_zero_of_not_mem h2]

theorem out_deep {ts : List Tok} {s : List Int} (h : Out ts s) : deep s = depth 40 41 ts := by
  induction h with
  | nil => rfl
  | plain h1 h2 h3 ho ih => rw [deep_cons, depth_cons _ _ (by decide), ih]; simp
  | slash ho ih => rw [deep_cons, depth_cons _ _ (by decide), ih]; simp
  | esc ho ih => rw [deep_cons, depth_cons _ _ (by decide), ih]; simp
  | cls hb ho ih =>
    rw [deep_cons, depth_cons _ _ (by decide), depth_append, depth_calm hb .round, depth_cons _ _ (by decide), ih]; simp
  | bound hb ho ih =>
    rw [deep_cons, depth_cons _ _ (by decide), depth_append, depth_calm hb .round, depth_cons _ _ (by decide), ih]; simp

/-! ## closed openers -/

theorem closed_append {a b : List Tok} (ha : OpenersClosed a) (hb : OpenersClosed b) : OpenersClosed (a ++ b) := by
  induction ha with
  | nil => exact hb
  | skip h _ ih => exact .skip h ih
  | @pair o c x y h hx _ _ ih => rw [List.cons_append, List.append_assoc, List.cons_append]; exact .pair h hx ih

theorem closed_calm : ∀ {b : List Tok}, (∀ t ∈ b, Calm t) → OpenersClosed b
  | [], _ => .nil
  | t :: b, h => .skip (fun o c hb => ((h t (by simp)).1 o c hb).1) (closed_calm (fun x hx => h x (by simp [hx])))

theorem bar_no_opener : ∀ o c, Bracket o c → ([124] : Tok) ≠ o := by intro o c h; cases h <;> decide

theorem closed_join : ∀ {ps : List (List Tok)}, (∀ p ∈ ps, OpenersClosed p) → OpenersClosed (joinWith 124 ps)
  | [], _ => .nil
  | [p], h => h p (by simp)
  | p :: q :: ps, h => by
    rw [joinWith]
    exact closed_append (h p (by simp)) (.skip bar_no_opener (closed_join (fun x hx => h x (by simp [hx]))))

theorem splitT_join (ts : List Tok) : joinWith 124 (splitT 124 ts) = ts := by
  have := splitAux_join 124 ts [] []
  simpa [splitT] using this

theorem extractT_only {op cl : Int} (hne : op ≠ cl) {ts content rest : List Tok} (h : extractT op cl ts = some (content, rest)) :
    (ts = content ++ [cl] :: rest ∧ depth op cl content = 0 ∧ (∀ a b, content = a ++ b → 0 ≤ depth op cl a)) ∨
    (content = [] ∧ rest = []) := by
  rcases extractAux_sound op cl hne ts 0 [] content rest h with ⟨u, h1, h2, h3, h4⟩ | ⟨h1, h2, h3, h4⟩
  · left
    simp at h1; subst h1
    exact ⟨h2, by simpa using h3, fun a b e => by simpa using h4 a b e⟩
  · right; exact ⟨h1, h2⟩

theorem extractT_calm {op cl : Int} (hb : Bracket [op] [cl]) (hne : op ≠ cl) {b r : List Tok} (h : ∀ t ∈ b, Calm t) :
    extractT op cl (b ++ [cl] :: r) = some (b, r) := by
  have := extractAux_complete op cl hne b 0 [] r (by simpa using depth_calm h hb)
    (fun a c e => by
      have : depth op cl a = 0 := depth_calm (fun t ht => h t (by rw [e]; simp [ht])) hb
      simp [this])
  simpa [extractT] using this

theorem items_nonempty {ts : List Tok} (h : Passes false ts) : ts ≠ [] := by
  rintro rfl; cases h

/-- The content of a group really ends at its closer. -/
theorem group_closed {tl c r : List Tok} (h : extractT 40 41 tl = some (c, r)) (hp : ∀ p ∈ splitT 124 c, Passes false p) :
    tl = c ++ [41] :: r ∧ (∀ a b, c = a ++ b → 0 ≤ depth 40 41 a) := by
  rcases extractT_only (by decide) h with ⟨h1, _, h3⟩ | ⟨rfl, _⟩
  · exact ⟨h1, h3⟩
  · exact absurd rfl (items_nonempty (hp [] (by simp [splitT, splitAux, reverseT, reverseAux])))

/-- The block at the head of an outline. -/
theorem out_class {tl : List Tok} {s : List Int} (h : Out ([91] :: tl) s) : ∃ b ts s', (∀ t ∈ b, Calm t) ∧ tl = b ++ [93] :: ts ∧ Out ts s' ∧ s = 97 :: s' := by
  cases h with
  | plain h1 => exact absurd rfl h1
  | cls hb ho => exact ⟨_, _, _, hb, rfl, ho, rfl⟩

theorem out_brace {tl : List Tok} {s : List Int} (h : Out ([123] :: tl) s) : ∃ b ts s', (∀ t ∈ b, Calm t) ∧ tl = b ++ [125] :: ts ∧ Out ts s' ∧ s = 42 :: s' := by
  cases h with
  | plain _ h1 => exact absurd rfl h1
  | bound hb ho => exact ⟨_, _, _, hb, rfl, ho, rfl⟩

theorem out_paren {tl : List Tok} {s : List Int} (h : Out ([40] :: tl) s) : ∃ s', Out tl s' ∧ s = 40 :: s' := by
  cases h with
  | plain _ _ _ ho => exact ⟨_, ho, rfl⟩

theorem out_tail {x : Tok} {tl : List Tok} {s : List Int} (h : Out (x :: tl) s) (h1 : x ≠ [91]) (h2 : x ≠ [123]) :
    ∃ c s', Out tl s' ∧ s = c :: s' ∧ (x = [c] ∧ c ≠ 92 ∨ c = 97 ∧ (x = [92] ∨ ∃ d, x = [92, d])) := by
  cases h with
  | plain _ _ h3 ho => exact ⟨_, _, ho, rfl, .inl ⟨rfl, h3⟩⟩
  | slash ho => exact ⟨_, _, ho, rfl, .inr ⟨rfl, .inl rfl⟩⟩
  | esc ho => exact ⟨_, _, ho, rfl, .inr ⟨rfl, .inr ⟨_, rfl⟩⟩⟩
  | cls => exact absurd rfl h1
  | bound => exact absurd rfl h2

/-- Outlines of the pieces of a join. -/
inductive Outs : List (List Tok) → List (List Int) → Prop
  | nil : Outs [] []
  | cons {p ps s ss} : Out p s → Outs ps ss → Outs (p :: ps) (s :: ss)

theorem outs_mem {ps : List (List Tok)} {ss : List (List Int)} (h : Outs ps ss) : ∀ p ∈ ps, ∃ s ∈ ss, Out p s := by
  induction h with
  | nil => simp
  | @cons p ps s ss h1 _ ih =>
    intro q hq
    rcases List.mem_cons.1 hq with rfl | hq
    · exact ⟨s, by simp, h1⟩
    · obtain ⟨s', h2, h3⟩ := ih q hq; exact ⟨s', by simp [h2], h3⟩

/-- Join characters. -/
def joinC : List (List Int) → List Int
  | [] => []
  | [p] => p
  | p :: q :: ps => p ++ 124 :: joinC (q :: ps)

theorem outs_ne {ps : List (List Tok)} {ss : List (List Int)} (h : Outs ps ss) (hne : ps ≠ []) : ss ≠ [] := by
  rintro rfl; cases h; exact hne rfl

theorem out_join : ∀ {ps : List (List Tok)} {s : List Int}, ps ≠ [] → Out (joinWith 124 ps) s → ∃ ss, Outs ps ss ∧ s = joinC ss
  | [], _, h, _ => absurd rfl h
  | [p], s, _, h => ⟨[s], .cons h .nil, rfl⟩
  | p :: q :: ps, s, _, h => by
    rw [joinWith] at h
    obtain ⟨su, sv, h1, h2, rfl⟩ := out_cut (.inr rfl) h
    obtain ⟨ss, h3, rfl⟩ := out_join (by simp) h2
    cases h3 with
    | cons h4 h5 => exact ⟨su :: _ :: _, .cons h1 (.cons h4 h5), rfl⟩

/-- Everything the tree builder gets through has its openers closed. -/
theorem items_closed {b : Bool} {ts : List Tok} (h : Passes b ts) : ∀ {s : List Int}, Out ts s → OpenersClosed ts := by
  induction h with
  | nil => intro s _; exact .nil
  | @tok b x tl h1 h2 h3 _ _ _ ih =>
    intro s ho
    obtain ⟨c, s', ho', _⟩ := out_tail ho h2 h3
    exact .skip (by intro o cl hb; cases hb <;> assumption) (ih ho')
  | @bound tl c r hx _ _ ih =>
    intro s ho
    obtain ⟨w, ts, s', hw, rfl, ho', rfl⟩ := out_brace ho
    rw [extractT_calm .curly (by decide) hw] at hx
    simp only [Option.some.injEq, Prod.mk.injEq] at hx
    exact .pair .curly (closed_calm hw) (by rw [hx.2]; exact ih (hx.2 ▸ ho'))
  | @cls b tl c r hx _ _ _ ih =>
    intro s ho
    obtain ⟨w, ts, s', hw, rfl, ho', rfl⟩ := out_class ho
    rw [extractT_calm .square (by decide) hw] at hx
    simp only [Option.some.injEq, Prod.mk.injEq] at hx
    exact .pair .square (closed_calm hw) (by rw [hx.2]; exact ih (hx.2 ▸ ho'))
  | @ncls b tl c r hx _ _ ih =>
    intro s ho
    obtain ⟨w, ts, s', hw, e, ho', rfl⟩ := out_class ho
    rw [e]
    cases w with
    | nil => simp at e
    | cons y w =>
      simp at e
      obtain ⟨rfl, rfl⟩ := e
      rw [extractT_calm .square (by decide) (fun t ht => hw t (by simp [ht]))] at hx
      simp only [Option.some.injEq, Prod.mk.injEq] at hx
      exact .pair .square (closed_calm hw) (by rw [hx.2]; exact ih (hx.2 ▸ ho'))
  | @group b tl c r hx _ hp _ ih1 ih2 =>
    intro s ho
    obtain ⟨rfl, _⟩ := group_closed hx hp
    obtain ⟨s', ho', rfl⟩ := out_paren ho
    obtain ⟨sc, sr, hc, hr, rfl⟩ := out_cut (.inl rfl) ho'
    refine .pair .round ?_ (ih2 hr)
    rw [← splitT_join c] at hc ⊢
    obtain ⟨ss, h3, _⟩ := out_join (by simpa [splitT] using splitAux_ne_nil 124 c [] []) hc
    exact closed_join (fun p hm => by obtain ⟨sp, _, hsp⟩ := outs_mem h3 p hm; exact ih1 p hm hsp)
  | @quiet b tl c r hx hp _ ih1 ih2 =>
    intro s ho
    obtain ⟨rfl, _⟩ := group_closed hx hp
    obtain ⟨s', ho', rfl⟩ := out_paren ho
    obtain ⟨sc, sr, hc, hr, rfl⟩ := out_cut (x := 41) (u := [63] :: [58] :: c) (.inl rfl) ho'
    have : [40] :: [63] :: [58] :: (c ++ [41] :: r) = [40] :: (([63] :: [58] :: c) ++ [41] :: r) := rfl
    rw [this]
    refine .pair .round ?_ (ih2 hr)
    refine .skip (by intro o c h; cases h <;> decide) (.skip (by intro o c h; cases h <;> decide) ?_)
    obtain ⟨_, _, hc, _⟩ := out_tail hc (by decide) (by decide)
    obtain ⟨_, _, hc, _⟩ := out_tail hc (by decide) (by decide)
    rw [← splitT_join c] at hc ⊢
    obtain ⟨ss, h3, _⟩ := out_join (by simpa [splitT] using splitAux_ne_nil 124 c [] []) hc
    exact closed_join (fun p hm => by obtain ⟨sp, _, hsp⟩ := outs_mem h3 p hm; exact ih1 p hm hsp)

/-! ## no `|` is left over -/

/-- There is no `|` between two parts whose openers are all closed. -/
def Barless (ts : List Tok) : Prop := ∀ u v, ts = u ++ [124] :: v → OpenersClosed u → OpenersClosed v → False

theorem splitAux_done (sep : Int) : ∀ (ts cur : List Tok) (done : List (List Tok)),
    splitAux sep ts cur done = done.reverse ++ splitAux sep ts cur []
  | [], cur, done => by simp [splitAux, reverseT_eq]
  | t :: ts, cur, done => by
    simp only [splitAux]
    split
    · rw [splitAux_done sep ts [] (cur :: done), splitAux_done sep ts [] [cur]]; simp
    · exact splitAux_done sep ts _ done

theorem splitAux_barless : ∀ (ts cur : List Tok), ∃ w ps, splitAux 124 ts cur [] = (cur ++ w) :: ps ∧ ts = joinWith 124 (w :: ps) ∧
    ((∀ p ∈ ps, OpenersClosed p) → (∀ u v, w = u ++ [124] :: v → OpenersClosed (cur ++ u) → OpenersClosed v → False) ∧
      ∀ p ∈ ps, Barless p)
  | [], cur => ⟨[], [], by simp [splitAux, reverseT_eq], rfl, fun _ => ⟨by intro u v h; simp at h, by simp⟩⟩
  | t :: ts, cur => by
    simp only [splitAux]
    split
    · rename_i hc
      obtain ⟨w, ps, h1, h2, h3⟩ := splitAux_barless ts []
      refine ⟨[], w :: ps, ?_, ?_, ?_⟩
      · rw [splitAux_done, h1]; simp
      · rw [h2, hc.1]; rfl
      · intro hp
        have := h3 (fun p hm => hp p (by simp [hm]))
        refine ⟨by intro u v h; simp at h, ?_⟩
        intro p hm
        rcases List.mem_cons.1 hm with rfl | hm
        · intro u v e hu hv; exact this.1 u v e (by simpa using hu) hv
        · exact this.2 p hm
    · rename_i hc
      obtain ⟨w, ps, h1, h2, h3⟩ := splitAux_barless ts (cur ++ [t])
      refine ⟨t :: w, ps, by rw [h1]; simp, ?_, ?_⟩
      · rw [h2]; cases ps <;> simp [joinWith]
      · intro hp
        have := h3 hp
        refine ⟨?_, this.2⟩
        intro u v e hu hv
        cases u with
        | nil =>
          simp at e
          obtain ⟨rfl, rfl⟩ := e
          apply hc
          refine ⟨rfl, (balancedV_iff _).2 ?_, (balancedV_iff _).2 (by simpa using hu)⟩
          rw [h2]
          exact closed_join (fun p hm => by
            rcases List.mem_cons.1 hm with rfl | hm
            · exact hv
            · exact hp p hm)
        | cons y u =>
          simp at e
          exact this.1 u v e.2 (by rw [e.1]; simpa using hu) hv

theorem splitT_barless {ts : List Tok} (h : ∀ p ∈ splitT 124 ts, OpenersClosed p) : ∀ p ∈ splitT 124 ts, Barless p := by
  obtain ⟨w, ps, h1, _, h3⟩ := splitAux_barless ts []
  rw [splitT] at h ⊢
  rw [h1] at h ⊢
  have := h3 (fun p hm => h p (by simp [hm]))
  intro p hm
  rcases List.mem_cons.1 hm with rfl | hm
  · intro u v e hu hv; exact this.1 u v (by simpa using e) (by simpa using hu) hv
  · exact this.2 p hm

/-! ## from the builder to the grammar -/

mutual
  theorem pattern_deep' : ∀ {top : Bool} {s : List Int}, Pattern top s → top = false → deep s = 0
    | _, _, .one h, e => branch_deep' h e
    | _, _, .more h1 h2, e => by rw [deep_append, deep_cons, branch_deep' h1 e, pattern_deep' h2 e]; rfl
  theorem branch_deep' : ∀ {top : Bool} {s : List Int}, Branch top s → top = false → deep s = 0
    | _, _, .mk h _, e => row_deep' h e
  theorem row_deep' : ∀ {top : Bool} {s : List Int}, Row top s → top = false → deep s = 0
    | _, _, .nil, _ => rfl
    | _, _, .char h1 _ h3 h, e => by
      rw [deep_cons, row_deep' h e, if_neg h1, if_neg (fun e' => by simp [h3 e'] at e)]; rfl
    | _, _, .group h1 h2, e => by rw [deep_cons, deep_append, deep_cons, pattern_deep' h1 rfl, row_deep' h2 e]; rfl
    | _, _, .quiet h1 h2, e => by
      rw [deep_cons, deep_cons, deep_cons, deep_append, deep_cons, pattern_deep' h1 rfl, row_deep' h2 e]; rfl
end

theorem pattern_deep {s : List Int} (h : Pattern false s) : deep s = 0 := pattern_deep' h rfl
theorem branch_deep {s : List Int} (h : Branch false s) : deep s = 0 := branch_deep' h rfl

/-- The depth is never negative. -/
def Up (s : List Int) : Prop := ∀ a b, s = a ++ b → 0 ≤ deep a

theorem up_drop {x s : List Int} (hx : deep x = 0) (h : Up (x ++ s)) : Up s := by
  intro a b e
  have := h (x ++ a) b (by rw [e]; simp)
  rw [deep_append, hx] at this
  omega

theorem row_up : ∀ {top : Bool} {s : List Int}, Row top s → Up s → Row false s
  | _, _, .nil, _ => .nil
  | _, _, .char (c := c) (s := s) h1 h2 h3 h, hu => by
    have h4 : c ≠ 41 := by
      rintro rfl
      have := hu [41] s rfl
      exact absurd this (by decide)
    refine .char h1 h2 (fun e => absurd e h4) (row_up h (up_drop (x := [c]) ?_ hu))
    rw [deep_cons, if_neg h1, if_neg h4]; rfl
  | _, _, .group (a := a) (s := s) h1 h2, hu => by
    refine .group h1 (row_up h2 (up_drop (x := 40 :: (a ++ [41])) ?_ (by simpa using hu)))
    rw [deep_cons, deep_append, pattern_deep h1]; rfl
  | _, _, .quiet (a := a) (s := s) h1 h2, hu => by
    refine .quiet h1 (row_up h2 (up_drop (x := 40 :: 63 :: 58 :: (a ++ [41])) ?_ (by simpa using hu)))
    rw [deep_cons, deep_cons, deep_cons, deep_append, pattern_deep h1]; rfl

theorem up_take {x s : List Int} (h : Up (x ++ s)) : Up x := fun a b e => h a (b ++ s) (by rw [e]; simp)

theorem branch_up {s : List Int} (h : Branch true s) (hu : Up s) : Branch false s := by
  cases h with
  | mk h1 h2 => exact .mk (row_up h1 hu) h2

theorem joinC_pattern {top : Bool} : ∀ {ss : List (List Int)}, ss ≠ [] → (∀ s ∈ ss, Branch top s) → Pattern top (joinC ss)
  | [], h, _ => absurd rfl h
  | [s], _, h => .one (h s (by simp))
  | s :: t :: ss, _, h => .more (h s (by simp)) (joinC_pattern (by simp) (fun x hx => h x (by simp [hx])))

theorem joinC_up : ∀ {ss : List (List Int)}, ss ≠ [] → (∀ s ∈ ss, Branch true s) → Up (joinC ss) → Pattern false (joinC ss)
  | [], h, _, _ => absurd rfl h
  | [s], _, h, hu => .one (branch_up (h s (by simp)) hu)
  | s :: t :: ss, _, h, hu => by
    rw [joinC] at hu ⊢
    have h1 := branch_up (h s (by simp)) (up_take hu)
    refine .more h1 (joinC_up (by simp) (fun x hx => h x (by simp [hx])) (up_drop (x := s ++ [124]) ?_ (by simpa using hu)))
    rw [deep_append, branch_deep h1]; rfl

theorem outs_all {ps : List (List Tok)} {ss : List (List Int)} (h : Outs ps ss) {P : List Int → Prop}
    (hp : ∀ p ∈ ps, ∀ s, Out p s → P s) : ∀ s ∈ ss, P s := by
  induction h with
  | nil => simp
  | @cons p ps s ss h1 _ ih =>
    intro x hx
    rcases List.mem_cons.1 hx with rfl | hx
    · exact hp p (by simp) _ h1
    · exact ih (fun p hm => hp p (by simp [hm])) x hx

theorem out_up {ts : List Tok} {s : List Int} (h : Out ts s) (hd : ∀ a b, ts = a ++ b → 0 ≤ depth 40 41 a) : Up s := by
  intro a b e
  obtain ⟨a', b', e', h1, _⟩ := out_prefix h e
  rw [out_deep h1]; exact hd a' b' e'

theorem barless_drop {x ts : List Tok} (hx : OpenersClosed x) (h : Barless (x ++ ts)) : Barless ts :=
  fun u v e hu hv => h (x ++ u) v (by rw [e]; simp) (closed_append hx hu) hv

/-- The content of a group. -/
theorem content_pattern {c : List Tok} {sc : List Int} (hc : Out c sc) (hd : ∀ a b, c = a ++ b → 0 ≤ depth 40 41 a)
    (hp : ∀ p ∈ splitT 124 c, Passes false p)
    (ih : ∀ p ∈ splitT 124 c, ∀ s, Out p s → Barless p → Row true s ∧ ∃ x s', s = x :: s' ∧ ¬ quantifier x) : Pattern false sc := by
  have hup := out_up hc hd
  rw [← splitT_join c] at hc
  have hne : splitT 124 c ≠ [] := by simpa [splitT] using splitAux_ne_nil 124 c [] []
  obtain ⟨ss, h3, rfl⟩ := out_join hne hc
  have hcl : ∀ p ∈ splitT 124 c, OpenersClosed p := fun p hm => by
    obtain ⟨s, _, hs⟩ := outs_mem h3 p hm; exact items_closed (hp p hm) hs
  have hbl := splitT_barless hcl
  refine joinC_up (outs_ne h3 hne) (outs_all h3 ?_) hup
  intro p hm s hs
  obtain ⟨h1, x, s', rfl, h2⟩ := ih p hm s hs (hbl p hm)
  exact .mk h1 h2

theorem items_row {b : Bool} {ts : List Tok} (h : Passes b ts) : ∀ s, Out ts s → Barless ts →
    Row true s ∧ (b = false → ∃ x s', s = x :: s' ∧ ¬ quantifier x) := by
  induction h with
  | nil => intro s ho _; cases ho; exact ⟨.nil, by simp⟩
  | @tok b x tl h1 h2 h3 hq _ hi ih =>
    intro s ho hb
    obtain ⟨c, s', ho', rfl, hx⟩ := out_tail ho h2 h3
    have hno : ∀ o cl, Bracket o cl → x ≠ o := by intro o cl hb; cases hb <;> assumption
    obtain ⟨hr, _⟩ := ih s' ho' (barless_drop (x := [x]) (.skip hno .nil) hb)
    have hc : c ≠ 40 ∧ c ≠ 124 ∧ (b = false → ¬ quantifier c) := by
      rcases hx with ⟨rfl, _⟩ | ⟨rfl, _⟩
      · refine ⟨by rintro rfl; exact h1 rfl, ?_, ?_⟩
        · rintro rfl; exact hb [] tl rfl .nil (items_closed hi ho')
        · intro hbf hq'
          obtain ⟨q1, q2, q3⟩ := hq hbf
          rcases hq' with rfl | rfl | rfl <;> simp_all
      · exact ⟨by decide, by decide, fun _ h => by rcases h with h | h | h <;> simp at h⟩
    exact ⟨.char hc.1 hc.2.1 (fun _ => rfl) hr, fun hbf => ⟨c, s', rfl, hc.2.2 hbf⟩⟩
  | @bound tl c r hx _ _ ih =>
    intro s ho hb
    obtain ⟨w, ts, s', hw, rfl, ho', rfl⟩ := out_brace ho
    rw [extractT_calm .curly (by decide) hw] at hx
    simp only [Option.some.injEq, Prod.mk.injEq] at hx
    obtain ⟨rfl, rfl⟩ := hx
    obtain ⟨hr, _⟩ := ih s' ho' (barless_drop (x := [123] :: (w ++ [[125]])) (.pair .curly (closed_calm hw) .nil) (by simpa using hb))
    exact ⟨.char (by decide) (by decide) (by decide) hr, by simp⟩
  | @cls b tl c r hx _ _ _ ih =>
    intro s ho hb
    obtain ⟨w, ts, s', hw, rfl, ho', rfl⟩ := out_class ho
    rw [extractT_calm .square (by decide) hw] at hx
    simp only [Option.some.injEq, Prod.mk.injEq] at hx
    obtain ⟨rfl, rfl⟩ := hx
    obtain ⟨hr, _⟩ := ih s' ho' (barless_drop (x := [91] :: (w ++ [[93]])) (.pair .square (closed_calm hw) .nil) (by simpa using hb))
    exact ⟨.char (by decide) (by decide) (by decide) hr, fun _ => ⟨97, s', rfl, by simp [quantifier]⟩⟩
  | @ncls b tl c r hx _ _ ih =>
    intro s ho hb
    obtain ⟨w, ts, s', hw, e, ho', rfl⟩ := out_class ho
    rw [e] at hb
    cases w with
    | nil => simp at e
    | cons y w =>
      simp at e
      obtain ⟨rfl, rfl⟩ := e
      rw [extractT_calm .square (by decide) (fun t ht => hw t (by simp [ht]))] at hx
      simp only [Option.some.injEq, Prod.mk.injEq] at hx
      obtain ⟨rfl, rfl⟩ := hx
      obtain ⟨hr, _⟩ := ih s' ho' (barless_drop (x := [91] :: ([94] :: w ++ [[93]])) (.pair .square (closed_calm hw) .nil) (by simpa using hb))
      exact ⟨.char (by decide) (by decide) (by decide) hr, fun _ => ⟨97, s', rfl, by simp [quantifier]⟩⟩
  | @group b tl c r hx _ hp _ ih1 ih2 =>
    intro s ho hb
    obtain ⟨rfl, hd⟩ := group_closed hx hp
    obtain ⟨s', ho', rfl⟩ := out_paren ho
    obtain ⟨sc, sr, hc, hr, rfl⟩ := out_cut (.inl rfl) ho'
    have hcl : OpenersClosed c := by
      rw [← splitT_join c] at hc ⊢
      obtain ⟨ss, h3, _⟩ := out_join (by simpa [splitT] using splitAux_ne_nil 124 c [] []) hc
      exact closed_join (fun p hm => by obtain ⟨sp, _, hsp⟩ := outs_mem h3 p hm; exact items_closed (hp p hm) hsp)
    have hpat := content_pattern hc hd hp (fun p hm s hs hbl => by
      obtain ⟨h1, h2⟩ := ih1 p hm s hs hbl; exact ⟨h1, h2 rfl⟩)
    obtain ⟨hrow, _⟩ := ih2 sr hr (barless_drop (x := [40] :: (c ++ [[41]])) (.pair .round hcl .nil) (by simpa using hb))
    exact ⟨.group hpat hrow, fun _ => ⟨40, _, rfl, by simp [quantifier]⟩⟩
  | @quiet b tl c r hx hp _ ih1 ih2 =>
    intro s ho hb
    obtain ⟨rfl, hd⟩ := group_closed hx hp
    obtain ⟨s', ho', rfl⟩ := out_paren ho
    obtain ⟨x1, s1, ho1, rfl, e1⟩ := out_tail ho' (by decide) (by decide)
    obtain ⟨x2, s2, ho2, rfl, e2⟩ := out_tail ho1 (by decide) (by decide)
    have e1 : x1 = 63 := by simp at e1; omega
    have e2 : x2 = 58 := by simp at e2; omega
    subst e1 e2
    obtain ⟨sc, sr, hc, hr, rfl⟩ := out_cut (.inl rfl) ho2
    have hcl : OpenersClosed c := by
      rw [← splitT_join c] at hc ⊢
      obtain ⟨ss, h3, _⟩ := out_join (by simpa [splitT] using splitAux_ne_nil 124 c [] []) hc
      exact closed_join (fun p hm => by obtain ⟨sp, _, hsp⟩ := outs_mem h3 p hm; exact items_closed (hp p hm) hsp)
    have hpat := content_pattern hc hd hp (fun p hm s hs hbl => by
      obtain ⟨h1, h2⟩ := ih1 p hm s hs hbl; exact ⟨h1, h2 rfl⟩)
    have hcl' : OpenersClosed ([63] :: [58] :: c) :=
      .skip (by intro o c h; cases h <;> decide) (.skip (by intro o c h; cases h <;> decide) hcl)
    obtain ⟨hrow, _⟩ := ih2 sr hr (barless_drop (x := [40] :: (([63] :: [58] :: c) ++ [[41]])) (.pair .round hcl' .nil) (by simpa using hb))
    exact ⟨.quiet hpat hrow, fun _ => ⟨40, _, rfl, by simp [quantifier]⟩⟩

theorem topBranches_mem {f : Nat} : ∀ {bs : List (List Tok)} {gi : Nat} {r : List Node}, topBranches f bs gi = some r →
    ∀ b ∈ bs, ∃ t gi', helper f none b gi' = some t
  | [], _, _, _, b, hb => by simp at hb
  | x :: bs, gi, r, e, b, hb => by
    simp only [topBranches] at e
    split at e
    · simp at e
    · rename_i t ht
      rcases List.mem_cons.1 hb with rfl | hb
      · exact ⟨t, gi, ht⟩
      · cases hr : topBranches f bs (nextIdx t) with
        | none => simp [hr] at e
        | some r' => exact topBranches_mem hr b hb

/-- A pattern that compiles has a well-formed outline. -/
theorem build_outline {p : List Ch} {t : Node} (h : build p = some t) {ts : List Tok} {s : List Int} (ht : Tokens p ts) (ho : Out ts s) : Pattern true s := by
  rw [build, (tokenize_iff p ts).2 ht] at h
  simp only [Option.map_eq_some_iff] at h
  obtain ⟨r, hr, _⟩ := h
  have hi : ∀ b ∈ splitT 124 ts, Passes false b := fun b hb => by
    obtain ⟨t, gi, h⟩ := topBranches_mem hr b hb; exact helper_items _ none b gi t h
  rw [← splitT_join ts] at ho
  have hne : splitT 124 ts ≠ [] := by simpa [splitT] using splitAux_ne_nil 124 ts [] []
  obtain ⟨ss, h3, rfl⟩ := out_join hne ho
  have hbl := splitT_barless (fun p hm => by obtain ⟨s, _, hs⟩ := outs_mem h3 p hm; exact items_closed (hi p hm) hs)
  refine joinC_pattern (outs_ne h3 hne) (outs_all h3 ?_)
  intro p hm s hs
  obtain ⟨h1, h2⟩ := items_row (hi p hm) s hs (hbl p hm)
  obtain ⟨x, s', rfl, h4⟩ := h2 rfl
  exact .mk h1 h4

theorem build_pattern {p : List Ch} {t : Node} (h : build p = some t) {s : List Int} (hs : outline .outside p = some s) : Pattern true s := by
  obtain ⟨ts, ht, ho⟩ := (outline_tokens p.length p (Nat.le_refl _)).1 s hs
  exact build_outline h ht ho

/-! ## consequences of the grammar -/

theorem readAll_append : ∀ (x : Spot) (a b : List Int), x.readAll (a ++ b) = (x.readAll a).bind (fun y => y.readAll b)
  | _, [], _ => rfl
  | x, c :: a, b => by
    simp only [List.cons_append, Spot.readAll]
    cases x.read c with
    | none => rfl
    | some y => exact readAll_append y a b

theorem read_other {c : Int} (h1 : ¬ quantifier c) (h2 : c ≠ 124) (h3 : c ≠ 40) :
    Spot.begins.read c = some .along ∧ (c ≠ 41 → Spot.opened.read c = some .along ∧ Spot.silent.read c = some .along) := by
  simp only [quantifier, not_or] at h1
  obtain ⟨q1, q2, q3⟩ := h1
  refine ⟨by simp [Spot.read, *], fun h => ⟨by simp [Spot.read, *], by simp [Spot.read, *]⟩⟩

theorem read_open (x : Spot) (h : x ≠ .marked) : x.read 40 = some .opened := by cases x <;> first | (exact absurd rfl h) | rfl

mutual
  theorem pattern_reads : ∀ {top : Bool} {s : List Int}, Pattern top s → Spot.begins.readAll s = some .along ∧
      (top = false → Spot.opened.readAll s = some .along ∧ Spot.silent.readAll s = some .along)
    | _, _, .one h => branch_reads h
    | _, _, .more h1 h2 => by
      obtain ⟨a1, a2⟩ := branch_reads h1
      obtain ⟨b1, b2⟩ := pattern_reads h2
      have hb : Spot.along.read 124 = some .begins := rfl
      refine ⟨by rw [readAll_append, a1, Option.bind_some, Spot.readAll, hb]; exact b1, fun ht => ?_⟩
      obtain ⟨c1, c2⟩ := a2 ht
      exact ⟨by rw [readAll_append, c1, Option.bind_some, Spot.readAll, hb]; exact b1,
        by rw [readAll_append, c2, Option.bind_some, Spot.readAll, hb]; exact b1⟩
  theorem branch_reads : ∀ {top : Bool} {s : List Int}, Branch top s → Spot.begins.readAll s = some .along ∧
      (top = false → Spot.opened.readAll s = some .along ∧ Spot.silent.readAll s = some .along)
    | _, _, .mk h hq => by
      have := (row_reads h).2 _ _ rfl hq
      exact this
  theorem row_reads : ∀ {top : Bool} {s : List Int}, Row top s → Spot.along.readAll s = some .along ∧
      (∀ c s', s = c :: s' → ¬ quantifier c → Spot.begins.readAll s = some .along ∧
        (top = false → Spot.opened.readAll s = some .along ∧ Spot.silent.readAll s = some .along))
    | _, _, .nil => ⟨rfl, by intro c s' h; simp at h⟩
    | _, _, .char (c := c) (s := s) h1 h2 h3 h => by
      have ih := (row_reads h).1
      refine ⟨by rw [Spot.readAll, show Spot.along.read c = some .along by simp [Spot.read, h1, h2]]; exact ih, ?_⟩
      intro c' s' e hq
      simp at e
      obtain ⟨rfl, rfl⟩ := e
      obtain ⟨r1, r2⟩ := read_other hq h2 h1
      refine ⟨by rw [Spot.readAll, r1]; exact ih, fun ht => ?_⟩
      obtain ⟨r3, r4⟩ := r2 (fun e => by simp [h3 e] at ht)
      exact ⟨by rw [Spot.readAll, r3]; exact ih, by rw [Spot.readAll, r4]; exact ih⟩
    | _, _, .group (a := a) (s := s) h1 h2 => by
      have ih := (row_reads h2).1
      have ia := ((pattern_reads h1).2 rfl).1
      have key : ∀ x : Spot, x ≠ .marked → x.readAll (40 :: (a ++ 41 :: s)) = some .along := by
        intro x hx
        rw [Spot.readAll, read_open x hx]
        simp only
        rw [readAll_append, ia, Option.bind_some, Spot.readAll]
        exact ih
      exact ⟨key _ (by decide), fun _ _ _ _ => ⟨key _ (by decide), fun _ => ⟨key _ (by decide), key _ (by decide)⟩⟩⟩
    | _, _, .quiet (a := a) (s := s) h1 h2 => by
      have ih := (row_reads h2).1
      have ia := ((pattern_reads h1).2 rfl).2
      have key : ∀ x : Spot, x ≠ .marked → x.readAll (40 :: 63 :: 58 :: (a ++ 41 :: s)) = some .along := by
        intro x hx
        rw [Spot.readAll, read_open x hx]
        simp only [Spot.readAll, Spot.read, if_true]
        rw [readAll_append, ia, Option.bind_some, Spot.readAll]
        exact ih
      exact ⟨key _ (by decide), fun _ _ _ _ => ⟨key _ (by decide), fun _ => ⟨key _ (by decide), key _ (by decide)⟩⟩⟩
end

/-- Every `(` of a well-formed outline is closed. -/
theorem pattern_counts {s : List Int} (h : Pattern true s) : s.count 40 ≤ s.count 41 := by
  have key : ∀ {top : Bool} {s : List Int}, Row top s → deep s ≤ 0 := by
    intro top s h
    have go : ∀ (n : Nat) {top : Bool} {s : List Int}, s.length ≤ n → Row top s → deep s ≤ 0 := by
      intro n
      induction n with
      | zero => intro top s hl _; rw [List.length_eq_zero_iff.1 (by omega : s.length = 0)]; decide
      | succ n ih =>
        intro top s hl h
        cases h with
        | nil => decide
        | @char _ c s h1 h2 h3 h =>
          have := ih (by simpa using hl) h
          rw [deep_cons, if_neg h1]; split <;> omega
        | @group _ a s h1 h2 =>
          have := ih (by simp at hl; omega) h2
          rw [deep_cons, deep_append, deep_cons, pattern_deep h1]; simp; omega
        | @quiet _ a s h1 h2 =>
          have := ih (by simp at hl; omega) h2
          rw [deep_cons, deep_cons, deep_cons, deep_append, deep_cons, pattern_deep h1]; simp; omega
    exact go _ (Nat.le_refl _) h
  have pat : ∀ (n : Nat) {s : List Int}, s.length ≤ n → Pattern true s → deep s ≤ 0 := by
    intro n
    induction n with
    | zero => intro s hl _; rw [List.length_eq_zero_iff.1 (by omega : s.length = 0)]; decide
    | succ n ih =>
      intro s hl h
      cases h with
      | one h => cases h with
        | mk h _ => exact key h
      | @more _ x t h1 h2 =>
        have := ih (by simp at hl; omega) h2
        have h3 : deep x ≤ 0 := by cases h1 with
          | mk h _ => exact key h
        rw [deep_append, deep_cons]; simp; omega
  have := pat _ (Nat.le_refl _) h
  unfold deep at this
  omega

/-! ## tokens that no accepted pattern has -/

/-- A token of a join lies in a piece; what follows it there is a part of what follows it in the join. -/
theorem join_piece {x : Tok} (hx : x ≠ [124]) : ∀ {ps : List (List Tok)} {u v : List Tok}, joinWith 124 ps = u ++ x :: v →
    ∃ p ∈ ps, ∃ u' v' w, p = u' ++ x :: v' ∧ v = v' ++ w ∧ (w = [] ∨ ∃ w', w = [124] :: w') ∧ ∀ y ∈ u', y ∈ u
  | [], u, v, e => by simp [joinWith] at e
  | [p], u, v, e => ⟨p, by simp, u, v, [], e, by simp, .inl rfl, fun _ h => h⟩
  | p :: q :: ps, u, v, e => by
    rw [joinWith] at e
    rcases List.append_eq_append_iff.1 e with ⟨w, e1, e2⟩ | ⟨w, e1, e2⟩
    · cases w with
      | nil => simp at e2; exact absurd e2.1.symm hx
      | cons y w =>
        simp at e2
        obtain ⟨r, hr, u', v', w', h1, h2, h3, h4⟩ := join_piece hx e2.2
        exact ⟨r, by simp [hr], u', v', w', h1, h2, h3, fun y hy => by rw [e1]; simp [h4 y hy]⟩
    · cases w with
      | nil => simp at e2; exact absurd e2.1 hx
      | cons y w =>
        simp at e2
        obtain ⟨rfl, rfl⟩ := e2
        exact ⟨p, by simp, u, w, [124] :: joinWith 124 (q :: ps), e1, by simp, .inr ⟨_, rfl⟩, fun _ h => h⟩

/-- Every token outside classes and bounds is looked at. -/
theorem passes_at {b : Bool} {ts : List Tok} (h : Passes b ts) : ∀ {u v : List Tok} {x : Tok}, ts = u ++ x :: v → [91] ∉ u → [123] ∉ u →
    x ≠ [124] → x ≠ [41] → (x ≠ [40] ∧ x ≠ [63] ∧ x ≠ [58]) → ∃ b' v' w, Passes b' (x :: v') ∧ v = v' ++ w ∧ (w = [] ∨ ∃ w', w = [124] :: w' ∨ w = [41] :: w') := by
  have inside : ∀ {c r u v : List Tok} {x : Tok}, (∀ p ∈ splitT 124 c, ∀ {u v : List Tok} {x : Tok}, p = u ++ x :: v → [91] ∉ u → [123] ∉ u →
        x ≠ [124] → x ≠ [41] → (x ≠ [40] ∧ x ≠ [63] ∧ x ≠ [58]) → ∃ b' v' w, Passes b' (x :: v') ∧ v = v' ++ w ∧ (w = [] ∨ ∃ w', w = [124] :: w' ∨ w = [41] :: w')) →
      (∀ {u v : List Tok} {x : Tok}, r = u ++ x :: v → [91] ∉ u → [123] ∉ u →
        x ≠ [124] → x ≠ [41] → (x ≠ [40] ∧ x ≠ [63] ∧ x ≠ [58]) → ∃ b' v' w, Passes b' (x :: v') ∧ v = v' ++ w ∧ (w = [] ∨ ∃ w', w = [124] :: w' ∨ w = [41] :: w')) →
      c ++ [41] :: r = u ++ x :: v → [91] ∉ u → [123] ∉ u → x ≠ [124] → x ≠ [41] → (x ≠ [40] ∧ x ≠ [63] ∧ x ≠ [58]) →
      ∃ b' v' w, Passes b' (x :: v') ∧ v = v' ++ w ∧ (w = [] ∨ ∃ w', w = [124] :: w' ∨ w = [41] :: w') := by
    intro c r u v x ih1 ih2 e n1 n2 x1 x2 x3
    rcases List.append_eq_append_iff.1 e with ⟨w, e1, e2⟩ | ⟨w, e1, e2⟩
    · cases w with
      | nil => simp at e2; exact absurd e2.1.symm x2
      | cons y w =>
        simp at e2
        exact ih2 e2.2 (fun h => n1 (by rw [e1]; simp [h])) (fun h => n2 (by rw [e1]; simp [h])) x1 x2 x3
    · cases w with
      | nil => simp at e2; exact absurd e2.1 x2
      | cons y w =>
        simp at e2
        obtain ⟨rfl, rfl⟩ := e2
        rw [← splitT_join c] at e1
        obtain ⟨p, hp, u', v', w', h1, h2, h3, h4⟩ := join_piece x1 e1
        obtain ⟨b', v2, w2, h5, h6, h7⟩ := ih1 p hp h1 (fun h => n1 (h4 _ h)) (fun h => n2 (h4 _ h)) x1 x2 x3
        refine ⟨b', v2, w2 ++ (w' ++ [41] :: r), h5, by rw [h2, h6]; simp, .inr ?_⟩
        rcases h7 with rfl | ⟨w3, rfl | rfl⟩
        · rcases h3 with rfl | ⟨w4, rfl⟩
          · exact ⟨r, .inr rfl⟩
          · exact ⟨_, .inl rfl⟩
        · exact ⟨_, .inl rfl⟩
        · exact ⟨_, .inr rfl⟩
  induction h with
  | nil => intro u v x e; simp at e
  | @tok b y tl h1 h2 h3 hq ht hi ih =>
    intro u v x e n1 n2 x1 x2 x3
    cases u with
    | nil => simp at e; obtain ⟨rfl, rfl⟩ := e; exact ⟨b, tl, [], .tok h1 h2 h3 hq ht hi, by simp, .inl rfl⟩
    | cons z u =>
      simp at e n1 n2
      obtain ⟨rfl, e⟩ := e
      exact ih e n1.2 n2.2 x1 x2 x3
  | @bound tl c r hx hq hi ih =>
    intro u v x e n1 n2 x1 x2 x3
    cases u with
    | nil => simp at e; obtain ⟨rfl, rfl⟩ := e; exact ⟨true, tl, [], .bound hx hq hi, by simp, .inl rfl⟩
    | cons z u => simp at e n2; exact absurd e.1 n2.1
  | @cls b tl c r hx hc hne hi ih =>
    intro u v x e n1 n2 x1 x2 x3
    cases u with
    | nil => simp at e; obtain ⟨rfl, rfl⟩ := e; exact ⟨b, tl, [], .cls hx hc hne hi, by simp, .inl rfl⟩
    | cons z u => simp at e n1; exact absurd e.1 n1.1
  | @ncls b tl c r hx hc hi ih =>
    intro u v x e n1 n2 x1 x2 x3
    cases u with
    | nil => simp at e; obtain ⟨rfl, rfl⟩ := e; exact ⟨b, [94] :: tl, [], .ncls hx hc hi, by simp, .inl rfl⟩
    | cons z u => simp at e n1; exact absurd e.1 n1.1
  | @group b tl c r hx hne hp hi ih1 ih2 =>
    intro u v x e n1 n2 x1 x2 x3
    cases u with
    | nil => simp at e; exact absurd e.1.symm x3.1
    | cons z u =>
      simp at e n1 n2
      obtain ⟨rfl, e⟩ := e
      obtain ⟨rfl, _⟩ := group_closed hx hp
      exact inside ih1 ih2 e n1.2 n2.2 x1 x2 x3
  | @quiet b tl c r hx hp hi ih1 ih2 =>
    intro u v x e n1 n2 x1 x2 x3
    obtain ⟨rfl, _⟩ := group_closed hx hp
    cases u with
    | nil => simp at e; exact absurd e.1.symm x3.1
    | cons z u =>
      cases u with
      | nil =>
        simp at e
        exact absurd e.2.1.symm x3.2.1
      | cons z' u =>
        cases u with
        | nil =>
          simp at e
          exact absurd e.2.2.1.symm x3.2.2
        | cons z'' u =>
          simp at e n1 n2
          obtain ⟨rfl, rfl, rfl, e⟩ := e
          exact inside ih1 ih2 e n1.2.2.2 n2.2.2.2 x1 x2 x3

/-- Every `[` outside bounds has a later `]`. -/
theorem passes_square {b : Bool} {ts : List Tok} (h : Passes b ts) : ∀ {u v : List Tok}, ts = u ++ [91] :: v → [123] ∉ u → [93] ∈ v := by
  have inside : ∀ {c r u v : List Tok}, (∀ p ∈ splitT 124 c, ∀ {u v : List Tok}, p = u ++ [91] :: v → [123] ∉ u → [93] ∈ v) →
      (∀ {u v : List Tok}, r = u ++ [91] :: v → [123] ∉ u → [93] ∈ v) →
      c ++ [41] :: r = u ++ [91] :: v → [123] ∉ u → [93] ∈ v := by
    intro c r u v ih1 ih2 e n2
    rcases List.append_eq_append_iff.1 e with ⟨w, e1, e2⟩ | ⟨w, e1, e2⟩
    · cases w with
      | nil => simp at e2
      | cons y w =>
        simp at e2
        exact ih2 e2.2 (fun h => n2 (by rw [e1]; simp [h]))
    · cases w with
      | nil => simp at e2
      | cons y w =>
        simp at e2
        obtain ⟨rfl, rfl⟩ := e2
        rw [← splitT_join c] at e1
        obtain ⟨p, hp, u', v', w', h1, h2, h3, h4⟩ := join_piece (by decide) e1
        have := ih1 p hp h1 (fun h => n2 (h4 _ h))
        rw [h2]; simp [this]
  induction h with
  | nil => intro u v e; simp at e
  | @tok b y tl h1 h2 h3 hq ht hi ih =>
    intro u v e n2
    cases u with
    | nil => simp at e; exact absurd e.1 h2
    | cons z u =>
      simp at e n2
      exact ih e.2 n2.2
  | @bound tl c r hx hq hi ih =>
    intro u v e n2
    cases u with
    | nil => simp at e
    | cons z u => simp at e n2; exact absurd e.1 n2.1
  | @cls b tl c r hx hc hne hi ih =>
    intro u v e n2
    rcases extractT_only (by decide) hx with ⟨rfl, _⟩ | ⟨rfl, rfl⟩
    · cases u with
      | nil => simp at e; rw [← e]; simp
      | cons z u =>
        simp at e n2
        rcases List.append_eq_append_iff.1 e.2 with ⟨w, e1, e2⟩ | ⟨w, e1, e2⟩
        · cases w with
          | nil => simp at e2
          | cons y w => simp at e2; exact ih e2.2 (fun h => n2.2 (by rw [e1]; simp [h]))
        · cases w with
          | nil => simp at e2
          | cons y w => simp at e2; rw [e2.2]; simp
    · exact absurd rfl hc
  | @ncls b tl c r hx hc hi ih =>
    intro u v e n2
    rcases extractT_only (by decide) hx with ⟨rfl, _⟩ | ⟨rfl, rfl⟩
    · cases u with
      | nil => simp at e; rw [← e]; simp
      | cons z u =>
        cases u with
        | nil => simp at e
        | cons z' u =>
          simp at e n2
          rcases List.append_eq_append_iff.1 e.2.2 with ⟨w, e1, e2⟩ | ⟨w, e1, e2⟩
          · cases w with
            | nil => simp at e2
            | cons y w => simp at e2; exact ih e2.2 (fun h => n2.2.2 (by rw [e1]; simp [h]))
          · cases w with
            | nil => simp at e2
            | cons y w => simp at e2; rw [e2.2]; simp
    · exact absurd rfl hc
  | @group b tl c r hx hne hp hi ih1 ih2 =>
    intro u v e n2
    obtain ⟨rfl, _⟩ := group_closed hx hp
    cases u with
    | nil => simp at e
    | cons z u => simp at e n2; exact inside ih1 ih2 e.2 n2.2
  | @quiet b tl c r hx hp hi ih1 ih2 =>
    intro u v e n2
    obtain ⟨rfl, _⟩ := group_closed hx hp
    cases u with
    | nil => simp at e
    | cons z u =>
      cases u with
      | nil => simp at e
      | cons z' u =>
        cases u with
        | nil => simp at e
        | cons z'' u =>
          simp at e n2
          exact inside ih1 ih2 e.2.2.2 n2.2.2.2

/-- The branches of a pattern that compiles. -/
theorem build_passes {p : List Ch} {t : Node} (h : build p = some t) : ∃ ts, Tokens p ts ∧ ∀ b ∈ splitT 124 ts, Passes false b := by
  unfold build at h
  split at h
  · simp at h
  · rename_i ts hts
    simp only [Option.map_eq_some_iff] at h
    obtain ⟨r, hr, _⟩ := h
    exact ⟨ts, (tokenize_iff p ts).1 hts, fun b hb => by obtain ⟨t, gi, h⟩ := topBranches_mem hr b hb; exact helper_items _ none b gi t h⟩

/-- Characters without meaning for the tokenizer are tokens of their own. -/
theorem tokens_prefix : ∀ {a : List Int}, 92 ∉ a → 123 ∉ a → ∀ {q : List Int} {ts : List Tok}, Tokens (a ++ q) ts →
    ∃ ts', Tokens q ts' ∧ ts = a.map (fun c => [c]) ++ ts'
  | [], _, _, q, ts, h => ⟨ts, h, rfl⟩
  | c :: a, h1, h2, q, ts, h => by
    simp at h1 h2
    generalize e : c :: a ++ q = p at h
    cases h with
    | nil => simp at e
    | plain h3 h4 h =>
      simp at e
      obtain ⟨rfl, rfl⟩ := e
      obtain ⟨ts', h5, rfl⟩ := tokens_prefix h1.2 h2.2 h
      exact ⟨ts', h5, rfl⟩
    | escaped h => simp at e; exact absurd e.1.symm h1.1
    | trailing => simp at e; exact absurd e.1.symm h1.1
    | brace1 => simp at e; exact absurd e.1.symm h2.1
    | brace2 => simp at e; exact absurd e.1.symm h2.1
    | brace3 => simp at e; exact absurd e.1.symm h2.1

theorem map_mem {a : List Int} {c : Int} : [c] ∈ a.map (fun c => [c]) ↔ c ∈ a := by simp

/-- A token of a pattern that compiles, outside classes and bounds. -/
theorem build_at {p : List Ch} {t : Node} (h : build p = some t) {a q : List Int} (e : p = a ++ q) (h1 : 92 ∉ a) (h2 : 123 ∉ a) (h3 : 91 ∉ a)
    {x : Tok} (hx : ∀ ts, Tokens q ts → ∃ v, ts = x :: v) (x1 : x ≠ [124]) (x2 : x ≠ [41]) (x3 : x ≠ [40] ∧ x ≠ [63] ∧ x ≠ [58]) :
    ∃ v b' v' w, Tokens q (x :: v) ∧ Passes b' (x :: v') ∧ v = v' ++ w ∧ (w = [] ∨ ∃ w', w = [124] :: w' ∨ w = [41] :: w') := by
  obtain ⟨ts, ht, hp⟩ := build_passes h
  rw [e] at ht
  obtain ⟨ts', h5, e2⟩ := tokens_prefix h1 h2 ht
  obtain ⟨v, rfl⟩ := hx _ h5
  rw [← splitT_join ts] at e2
  obtain ⟨r, hr, u', v', w, g1, g2, g3, g4⟩ := join_piece x1 e2
  obtain ⟨b', v2, w2, k1, k2, k3⟩ := passes_at (hp r hr) g1 (fun h => h3 (map_mem.1 (g4 _ h))) (fun h => h2 (map_mem.1 (g4 _ h))) x1 x2 x3
  refine ⟨v, b', v2, w2 ++ w, h5, k1, by rw [g2, k2]; simp, ?_⟩
  rcases k3 with rfl | ⟨w3, rfl | rfl⟩
  · rcases g3 with rfl | ⟨w4, rfl⟩
    · exact .inl rfl
    · exact .inr ⟨_, .inl rfl⟩
  · exact .inr ⟨_, .inl rfl⟩
  · exact .inr ⟨_, .inr rfl⟩

theorem build_square {p : List Ch} {t : Node} (h : build p = some t) {a b : List Int} (e : p = a ++ 91 :: b) (h1 : 92 ∉ a) (h2 : 123 ∉ a) : 93 ∈ b := by
  obtain ⟨ts, ht, hp⟩ := build_passes h
  rw [e] at ht
  obtain ⟨ts', h5, e2⟩ := tokens_prefix h1 h2 ht
  cases h5 with
  | plain _ _ h5 =>
    rw [← splitT_join ts] at e2
    obtain ⟨r, hr, u', v', w, g1, g2, g3, g4⟩ := join_piece (by decide) e2
    have := passes_square (hp r hr) g1 (fun h => h2 (map_mem.1 (g4 _ h)))
    rw [← tokens_flatten h5, g2]
    simp only [List.flatten_append, List.mem_append, List.mem_flatten]
    exact .inl ⟨_, this, by simp⟩

/-- An escape the library has no matcher for. -/
theorem build_escape {p : List Ch} {a b : List Int} {c : Int} (e : p = a ++ 92 :: c :: b) (h1 : 92 ∉ a) (h2 : 123 ∉ a) (h3 : 91 ∉ a)
    (hc : terminalOf [92, c] = none) : build p = none := by
  cases h : build p with
  | none => rfl
  | some t =>
    obtain ⟨v, b', v', w, _, k, _⟩ := build_at h e h1 h2 h3 (x := [92, c])
      (by
        intro ts ht
        cases ht with
        | plain h => exact absurd rfl h
        | escaped h => exact ⟨_, rfl⟩) (by simp) (by simp) (by simp)
    cases k with
    | tok _ _ _ _ h => exact absurd hc h

end ERegex

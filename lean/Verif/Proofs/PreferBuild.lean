import Verif.Proofs.Prefer
/-!
# The preferred match: the compiled tree of a regular pattern
-/
set_option autoImplicit false
namespace ERegex
open ERegex.Spec ERegex.Props

/-- The tree of a quantified atom with its children. -/
def hang (k : Quant) (m : Node) (cs : List Node) : Node :=
  match k with
  | .once => .simple m cs
  | .exact d _ => .repeated (.simple m []) (decimal d).toNat cs
  | k => match k.mode with
    | .greedy => .greedy (.simple m []) k.lo k.hiN cs
    | .lazy => .lazy (.simple m []) k.lo k.hiN cs
    | .possessive => .possessive (.simple m []) k.lo k.hiN cs

theorem hang_child (k : Quant) (m c : Node) : addChild (some (hang k m [])) c = some (hang k m [c]) := by
  unfold hang
  cases k with
  | once => rfl
  | exact => rfl
  | star md => cases md <;> rfl
  | plus md => cases md <;> rfl
  | opt md => cases md <;> rfl
  | atLeast d md => cases md <;> rfl
  | between d e md => cases md <;> rfl

/-- The tree of a quantified node with its children. -/
def hangN (k : Quant) (m : Node) (cs : List Node) : Node :=
  match k with
  | .exact d _ => .repeated m (decimal d).toNat cs
  | k => match k.mode with
    | .greedy => .greedy m k.lo k.hiN cs
    | .lazy => .lazy m k.lo k.hiN cs
    | .possessive => .possessive m k.lo k.hiN cs

theorem hangN_child (k : Quant) (m c : Node) : addChild (some (hangN k m [])) c = some (hangN k m [c]) := by
  unfold hangN
  cases k with
  | once => rfl
  | exact => rfl
  | star md => cases md <;> rfl
  | plus md => cases md <;> rfl
  | opt md => cases md <;> rfl
  | atLeast d md => cases md <;> rfl
  | between d e md => cases md <;> rfl

theorem quant_hangN (k : Quant) (hq : k.ok = true) (h1 : k ≠ .once) {rest : List Tok} (hr : ∀ x tl, rest = x :: tl → x ≠ [63] ∧ x ≠ [43]) (gi : Nat) (m : Node) :
    H (some m) (k.toks ++ rest) gi = H (some (hangN k m [])) rest gi := by
  have comma : NoBracket [44] := noBracket_chr (by decide)
  cases k with
  | once => exact absurd rfl h1
  | star md =>
    simp only [Quant.toks, List.cons_append]
    rw [H_quant (classify_star _ _), policyOf_mode md hr]; cases md <;> rfl
  | plus md =>
    simp only [Quant.toks, List.cons_append]
    rw [H_quant (classify_plus _ _), policyOf_mode md hr]; cases md <;> rfl
  | opt md =>
    simp only [Quant.toks, List.cons_append]
    rw [H_quant (classify_opt _ _), policyOf_mode md hr]; cases md <;> rfl
  | exact d md =>
    have hb := boundB_iff hq
    have hp := pack_digits hq
    have h1 := noBracket_digits hb.2.1
    have he := extract_digits (w := [d]) (by simpa using h1) (md.toks ++ rest)
    simp only [Quant.toks, List.cons_append]
    rw [H_quant (q := fun x => quantifiedNode x [d] (polOf md)) (rest := rest)
      (by rw [classify_brace, show d :: [125] :: (md.toks ++ rest) = [d] ++ [125] :: (md.toks ++ rest) from rfl, he]
          simp only [policyOf_mode md hr])]
    simp [quantifiedNode, hp.1, hangN]
  | atLeast d md =>
    have hb := boundB_iff hq
    have hp := pack_digits hq
    have h1 := noBracket_digits hb.2.1
    have he := extract_digits (w := [d, [44]]) (by simp [h1, comma]) (md.toks ++ rest)
    simp only [Quant.toks, List.cons_append]
    rw [H_quant (q := fun x => quantifiedNode x [d, [44]] (polOf md)) (rest := rest)
      (by rw [classify_brace, show d :: [44] :: [125] :: (md.toks ++ rest) = [d, [44]] ++ [125] :: (md.toks ++ rest) from rfl, he]
          simp only [policyOf_mode md hr])]
    simp only [quantifiedNode, hp.1]
    cases md <;> rfl
  | between d e md =>
    simp only [Quant.ok, Bool.and_eq_true] at hq
    have hb := boundB_iff hq.1
    have hp := pack_digits hq.1
    have hl := pack_digits hq.2
    have h1 := noBracket_digits hb.2.1
    have h2 := noBracket_digits (boundB_iff hq.2).2.1
    have he := extract_digits (w := [d, [44], e]) (by simp [h1, h2, comma]) (md.toks ++ rest)
    simp only [Quant.toks, List.cons_append]
    rw [H_quant (q := fun x => quantifiedNode x [d, [44], e] (polOf md)) (rest := rest)
      (by rw [classify_brace, show d :: [44] :: e :: [125] :: (md.toks ++ rest) = [d, [44], e] ++ [125] :: (md.toks ++ rest) from rfl, he]
          simp only [policyOf_mode md hr])]
    simp only [quantifiedNode, hp.1, hl.1]
    cases md <;> rfl

theorem quant_hang (k : Quant) (hq : k.ok = true) {rest : List Tok} (hr : ∀ x tl, rest = x :: tl → x ≠ [63] ∧ x ≠ [43]) (gi : Nat) (m : Node) :
    H (some (.simple m [])) (k.toks ++ rest) gi = H (some (hang k m [])) rest gi := by
  cases k with
  | once => rfl
  | star md => exact quant_hangN (.star md) hq (by simp) hr gi _
  | plus md => exact quant_hangN (.plus md) hq (by simp) hr gi _
  | opt md => exact quant_hangN (.opt md) hq (by simp) hr gi _
  | exact d md => exact quant_hangN (.exact d md) hq (by simp) hr gi _
  | atLeast d md => exact quant_hangN (.atLeast d md) hq (by simp) hr gi _
  | between d e md => exact quant_hangN (.between d e md) hq (by simp) hr gi _

theorem regular_ok : ∀ (s : Sq), s.regular = true → s.ok = true
  | .nil _, _ => rfl
  | .cons a k s, h => by
    simp only [Sq.regular, Bool.and_eq_true, Quant.sane] at h
    simp [Sq.ok, h.1.1.1.1, h.1.1.2.1, regular_ok s h.2]

theorem fits_hang {a : Atom} {m : Node} (ha : Atomic a m) (k : Quant) {s : Sq} {cs : List Node} (hf : Fits false s cs) :
    Fits false (.cons a k s) [hang k m cs] := by
  have gen : k.fixed = false → Fits false (.cons a k s) [match k.mode with
    | .greedy => .greedy (.simple m []) k.lo k.hiN cs
    | .lazy => .lazy (.simple m []) k.lo k.hiN cs
    | .possessive => .possessive (.simple m []) k.lo k.hiN cs] := by
    intro hk
    cases hm : k.mode with
    | greedy => exact .greedy ha.wrap hf hk hm (by simp)
    | lazy => exact .lazy ha.wrap hf hk hm (by simp)
    | possessive => exact .possessive ha.wrap hf hk (by simp [keeps, hm])
  cases k with
  | once => exact .once ha hf
  | exact d md => exact .exact ha.wrap hf
  | star md => exact gen rfl
  | plus md => exact gen rfl
  | opt md => exact gen rfl
  | atLeast d md => exact gen rfl
  | between d e md => exact gen rfl

theorem sq_tree : ∀ (s : Sq), s.regular = true → (∀ x ∈ s.spell, x ∈ allChars) → ∀ (k : Quant) (m : Node) (gi : Nat),
    ∃ cs, Fits false s cs ∧ H (some (hang k m [])) s.toks gi = some (hang k m cs)
  | .nil false, _, _, k, m, gi => ⟨[], .nil _, H_nil _ _⟩
  | .nil true, _, _, k, m, gi => ⟨[.simple .eol []], .dollar _, by
      rw [show (Sq.nil true).toks = [[36]] from rfl, H_dollar, hang_child]⟩
  | .cons a k' s, h, hc, k, m, gi => by
    have hs := regular_ok _ h
    simp only [Sq.ok, Bool.and_eq_true] at hs
    simp only [Sq.regular, Bool.and_eq_true, Quant.sane] at h
    simp only [Sq.spell, List.mem_append] at hc
    obtain ⟨n, b, hn, hcl⟩ := atom_node a h.1.1.1.1 h.1.1.1.2 (fun x hx => hc x (Or.inl (Or.inl hx)))
    obtain ⟨cs, h1, h2⟩ := sq_tree s h.2 (fun x hx => hc x (Or.inr hx)) k' n (if b then nextIdx (.simple n []) else gi)
    refine ⟨[hang k' n cs], fits_hang hn k' h1, ?_⟩
    simp only [Sq.toks]
    rw [H_node (hcl _ _), quant_hang k' hs.1.2 (Sq.head_quant s hs.2), h2]
    exact hang_child k m _

theorem sq_head : ∀ (s : Sq), s.regular = true → s.empty = false → (∀ x ∈ s.spell, x ∈ allChars) → ∀ (gi : Nat),
    ∃ t, Fits false s [t] ∧ H none s.toks gi = some t
  | .nil false, _, he, _, gi => by simp [Sq.empty] at he
  | .nil true, _, _, _, gi => ⟨.simple .eol [], .dollar _, by rw [show (Sq.nil true).toks = [[36]] from rfl, H_dollar]; rfl⟩
  | .cons a k' s, h, _, hc, gi => by
    have hs := regular_ok _ h
    simp only [Sq.ok, Bool.and_eq_true] at hs
    simp only [Sq.regular, Bool.and_eq_true, Quant.sane] at h
    simp only [Sq.spell, List.mem_append] at hc
    obtain ⟨n, b, hn, hcl⟩ := atom_node a h.1.1.1.1 h.1.1.1.2 (fun x hx => hc x (Or.inl (Or.inl hx)))
    obtain ⟨cs, h1, h2⟩ := sq_tree s h.2 (fun x hx => hc x (Or.inr hx)) k' n (if b then nextIdx (.simple n []) else gi)
    refine ⟨hang k' n cs, fits_hang hn k' h1, ?_⟩
    simp only [Sq.toks]
    rw [H_node (hcl _ _), quant_hang k' hs.1.2 (Sq.head_quant s hs.2), h2]
    rfl

/-! ## the whole pattern -/

/-- The alternatives: leading `^`, rest. -/
def _root_.ERegex.Spec.Alts.bodies : Alts → List (Bool × Sq)
  | .last hat s => [(hat, s)]
  | .more hat s as => (hat, s) :: as.bodies

/-- Tree of an alternative. -/
inductive Top (f : Bool) : Bool × Sq → Node → Prop
  | hat {s : Sq} {cs : List Node} : Fits f s cs → cs ≠ [] → Top f (true, s) (.simple .bos cs)
  | plain {s : Sq} {t : Node} : Fits f s [t] → Top f (false, s) t

inductive Tops (f : Bool) : List (Bool × Sq) → List Node → Prop
  | nil : Tops f [] []
  | cons {x : Bool × Sq} {t : Node} {xs : List (Bool × Sq)} {ts : List Node} : Top f x t → Tops f xs ts → Tops f (x :: xs) (t :: ts)

/-- Tree of the pattern. -/
inductive Whole (f : Bool) : List (Bool × Sq) → Node → Prop
  | alt {xs : List (Bool × Sq)} {ts : List Node} : Tops f xs ts → Whole f xs (.alt ts)
  | one {x : Bool × Sq} {t : Node} : Top f x t → Whole f [x] t

/-- The conditions used here. -/
def BodyOk (x : Bool × Sq) : Prop := x.2.regular = true ∧ x.2.empty = false

theorem top_opt {f : Bool} {x : Bool × Sq} {t : Node} (h : Top f x t) (hx : x.2.regular = true) : Top true x (opt t []) := by
  cases h with
  | hat hf hne =>
    have := opt_fits hf hx
    rename_i cs
    cases cs with
    | nil => exact absurd rfl hne
    | cons c cs => exact .hat this (by simp [opts])
  | plain hf => exact .plain (opt_fits hf hx)

theorem tops_opt {f : Bool} {xs : List (Bool × Sq)} {ts : List Node} (h : Tops f xs ts) (hx : ∀ x ∈ xs, x.2.regular = true) :
    Tops true xs (opts ts) := by
  induction h with
  | nil => exact .nil
  | cons h1 h2 ih => exact .cons (top_opt h1 (hx _ (by simp))) (ih (fun x h => hx x (by simp [h])))

theorem whole_opt {f : Bool} {xs : List (Bool × Sq)} {t : Node} (h : Whole f xs t) (hx : ∀ x ∈ xs, x.2.regular = true) :
    Whole true xs (opt t []) := by
  cases h with
  | one h => exact .one (top_opt h (hx _ (by simp)))
  | alt h =>
    have := tops_opt h hx
    rename_i ts
    match ts with
    | [] => exact .alt this
    | [c] =>
      cases this with
      | cons h1 h2 => cases h2; exact .one h1
    | c :: d :: cs => exact .alt this

theorem top_build {x : Bool × Sq} (hr : x.2.regular = true) (he : x.2.empty = false) (hc : ∀ c ∈ x.2.spell, c ∈ allChars) (gi : Nat) :
    ∃ t, Top false x t ∧ H none (hatToks x.1 ++ x.2.toks) gi = some t := by
  obtain ⟨hat, s⟩ := x
  cases hat with
  | true =>
    obtain ⟨cs, h1, h2⟩ := sq_tree s hr hc .once .bos gi
    refine ⟨.simple .bos cs, .hat h1 ?_, ?_⟩
    · rintro rfl; cases h1; simp [Sq.empty] at he
    · rw [show hatToks true ++ s.toks = [94] :: s.toks from rfl, H_hat]; exact h2
  | false =>
    obtain ⟨t, h1, h2⟩ := sq_head s hr he hc gi
    exact ⟨t, .plain h1, h2⟩

theorem tops_build {f : Nat} : ∀ (xs : List (Bool × Sq)) (gi : Nat), (∀ x ∈ xs, x.2.regular = true ∧ x.2.empty = false ∧ ∀ c ∈ x.2.spell, c ∈ allChars) →
    (∀ x ∈ xs, (hatToks x.1 ++ x.2.toks).length < f) →
    ∃ ts, Tops false xs ts ∧ topBranches f (xs.map (fun x => hatToks x.1 ++ x.2.toks)) gi = some ts
  | [], _, _, _ => ⟨[], .nil, by simp [topBranches]⟩
  | x :: xs, gi, h, hf => by
    obtain ⟨h1, h2, h3⟩ := h x (by simp)
    obtain ⟨t, h4, h5⟩ := top_build h1 h2 h3 gi
    obtain ⟨ts, h6, h7⟩ := tops_build xs (nextIdx t) (fun y hy => h y (by simp [hy])) (fun y hy => hf y (by simp [hy]))
    refine ⟨t :: ts, .cons h4 h6, ?_⟩
    simp only [List.map_cons, topBranches]
    rw [helper_H (hf x (by simp)), h5]
    simp [h7]

theorem parts_bodies : ∀ (as : Alts), as.parts.map Prod.fst = as.bodies.map (fun x => hatToks x.1 ++ x.2.toks)
  | .last .. => by simp [Alts.parts, Alts.bodies]
  | .more hat s as => by simp [Alts.parts, Alts.bodies, parts_bodies as]

theorem eats_nonempty : ∀ (s : Sq), s.eats = true → s.empty = false
  | .nil _, h => by simp [Sq.eats] at h
  | .cons .., _ => rfl

theorem body_ok {hat : Bool} {s : Sq} (h : altOk hat s = true) : s.regular = true ∧ s.empty = false := by
  simp only [altOk, Bool.and_eq_true] at h
  exact ⟨h.1.1, eats_nonempty s h.1.2⟩

theorem bodies_all : ∀ (as : Alts), as.allOk = true → ∀ x ∈ as.bodies, altOk x.1 x.2 = true
  | .last hat s, h, x, hx => by simp only [Alts.bodies, List.mem_singleton] at hx; subst hx; exact h
  | .more hat s as, h, x, hx => by
    simp only [Alts.allOk, Bool.and_eq_true] at h
    simp only [Alts.bodies, List.mem_cons] at hx
    rcases hx with rfl | hx
    · exact h.1
    · exact bodies_all as h.2 x hx

/-- The alternatives of a regular pattern. -/
theorem bodies_ok (as : Alts) (h : as.regular = true) : ∀ x ∈ as.bodies, x.2.regular = true ∧ x.2.empty = false := by
  cases as with
  | last hat s =>
    intro x hx
    simp only [Alts.bodies, List.mem_singleton] at hx; subst hx
    simp only [Alts.regular, Bool.or_eq_true, Bool.and_eq_true] at h
    rcases h with h | h
    · exact body_ok h
    · refine ⟨h.1.2, ?_⟩
      have := h.2
      cases s with
      | nil => simp [Sq.loopHead] at this
      | cons => rfl
  | more hat s as => exact fun x hx => body_ok (bodies_all (.more hat s as) (by simpa [Alts.regular, Alts.allOk] using h) x hx)

theorem bodies_alts_ok : ∀ (as : Alts), (∀ x ∈ as.bodies, x.2.regular = true ∧ x.2.empty = false) → as.ok = true
  | .last hat s, h => by
    have := h (hat, s) (by simp [Alts.bodies])
    simp [Alts.ok, regular_ok s this.1, this.2]
  | .more hat s as, h => by
    have := h (hat, s) (by simp [Alts.bodies])
    simp [Alts.ok, regular_ok s this.1, this.2, bodies_alts_ok as (fun x hx => h x (by simp [Alts.bodies, hx]))]

theorem bodies_spell : ∀ (as : Alts), (∀ c ∈ as.spell, c ∈ allChars) → ∀ x ∈ as.bodies, ∀ c ∈ x.2.spell, c ∈ allChars
  | .last hat s, h, x, hx, c, hc => by
    simp only [Alts.bodies, List.mem_singleton] at hx; subst hx
    exact h c (by simp [Alts.spell, hc])
  | .more hat s as, h, x, hx, c, hc => by
    simp only [Alts.bodies, List.mem_cons] at hx
    rcases hx with rfl | hx
    · exact h c (by simp [Alts.spell, hc])
    · exact bodies_spell as (fun c hc => h c (by simp [Alts.spell, hc])) x hx c hc

theorem optFix_inv {P : Node → Prop} (hP : ∀ t, P t → P (opt t [])) : ∀ (f : Nat) (t r : Node), P t → optFix f t = some r → P r ∧ opt r [] = r := by
  intro f
  induction f with
  | zero => intro t r _ h; simp [optFix] at h
  | succ f ih =>
    intro t r ht h
    simp only [optFix] at h
    split at h
    · rename_i e; simp only [Option.some.injEq] at h; subst h; exact ⟨ht, e⟩
    · exact ih _ _ (hP t ht) h

/-- The tree of a regular pattern as written. -/
theorem build_whole (as : Alts) (h : as.regular = true) (hc : ∀ c ∈ as.spell, c ∈ allChars) :
    ∃ t, build as.spell = some t ∧ Whole false as.bodies t := by
  have hb := bodies_ok as h
  have hok := bodies_alts_ok as hb
  have ht : tokenize as.spell = some as.toks := (tokenize_iff _ _).2 (by simpa using tokens_alts as hok .nil)
  have hs : splitT 124 as.toks = as.bodies.map (fun x => hatToks x.1 ++ x.2.toks) := by
    rw [← parts_bodies, toks_join]; exact splitT_parts _ (parts_ne as) (topFree_alts as hok)
  obtain ⟨ts, h1, h2⟩ := tops_build (f := as.toks.length + 1) as.bodies 0
    (fun x hx => ⟨(hb x hx).1, (hb x hx).2, bodies_spell as hc x hx⟩) (fun x hx => by
      have := length_join_ge (as.parts.map Prod.fst) _ (by rw [parts_bodies]; exact List.mem_map_of_mem hx)
      rw [← toks_join] at this; omega)
  exact ⟨_, by simp only [build, ht, hs, h2]; rfl, .alt h1⟩

/-- The compiled tree of a regular pattern. -/
theorem compile_whole (as : Alts) (h : as.regular = true) (hc : ∀ c ∈ as.spell, c ∈ allChars) :
    ∃ t, compile as.spell = some t ∧ Whole true as.bodies t := by
  have hb := bodies_ok as h
  obtain ⟨b, hbuild, h1⟩ := build_whole as h hc
  obtain ⟨r, hr⟩ := optimize_some b
  refine ⟨r, by simp [compile, hbuild, hr], ?_⟩
  obtain ⟨⟨f, hw⟩, he⟩ := optFix_inv (P := fun t => ∃ f, Whole f as.bodies t) (fun t ⟨f, ht⟩ => ⟨true, whole_opt ht (fun x hx => (hb x hx).1)⟩) _ _ _
    ⟨false, h1⟩ hr
  rw [← he]; exact whole_opt hw (fun x hx => (hb x hx).1)

end ERegex

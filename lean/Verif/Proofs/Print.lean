import Verif.Proofs.Syntax
import Verif.Props.Front
/-!
# Printed expressions

`reads t` recovers, where possible, a well-formed pattern whose text is the printed expression of `t`.
-/
set_option autoImplicit false
namespace ERegex
open ERegex.Spec

theorem Same.symm {r s : Rx} (h : Same r s) : Same s r := fun q i j => (h q i j).symm

/-- An alternative that is a sequence without `^`. -/
def asSq : Alts → Option Sq
  | .last false s => some s
  | _ => none

/-- A single atom. -/
def asAtom : Alts → Option Atom
  | .last false (.cons a .once (.nil false)) => some a
  | _ => none

/-- One sequence after another; `$` only at the end. -/
def appSq : Sq → Sq → Option Sq
  | .nil false, s => some s
  | .nil true, .nil false => some (.nil true)
  | .nil true, _ => none
  | .cons a q s, s' => (appSq s s').map (.cons a q)

/-- The pattern that is one atom. -/
def ofAtom (a : Atom) : Alts := .last false (.cons a .once (.nil false))

/-- Plain characters in a row. -/
def chars : List Int → Sq
  | [] => .nil false
  | c :: cs => .cons (.chr c) .once (chars cs)

/-- The quantifier that is printed. -/
def quantOf (lo hi : Nat) (m : QMode) : Option Quant :=
  if lo = 0 ∧ hi = umax then some (.star m)
  else if lo = 1 ∧ hi = umax then some (.plus m)
  else if lo = 0 ∧ hi = 1 then some (.opt m)
  else if lo = 0 ∨ umax ≤ lo then none
  else if hi = umax then some (.atLeast (numberToPack lo) m)
  else if hi = 0 ∨ umax ≤ hi then none
  else some (.between (numberToPack lo) (numberToPack hi) m)

/-- A printed alternative. -/
def branch (as : Alts) : Sq := .cons (.group false as) .once (.nil false)

mutual
/-- The pattern that the printed expression spells. -/
def reads : Node → Option Alts
  | .exact s d => if d = s ∧ s ≠ [] ∧ s.all plainB = true then some (.last false (chars s)) else none
  | .range a b d => if d = [91, a, 45, b, 93] ∧ (Item.rng a b).ok = true then some (ofAtom (.cls false [.rng a b] false)) else none
  | .space => some (ofAtom (.esc 115))
  | .word => some (ofAtom (.esc 119))
  | .any => some (ofAtom .dot)
  | .bos => some (.last true (.nil false))
  | .eol => some (.last false (.nil true))
  | .negated (.exact s d) => if d = s ∧ s.length = 1 ∧ s.all classB = true then some (ofAtom (.cls true (s.map .chr) false)) else none
  | .negated .word => some (ofAtom (.cls true [.esc 119] false))
  | .negated .space => some (ofAtom (.cls true [.esc 115] false))
  | .negated _ => none
  | .simple m cs =>
    match reads m, conts cs with
    | some (.last hat s), some s' => (appSq s s').map (.last hat)
    | _, _ => none
  | .alt [] => none
  | .alt [c] => reads c
  | .alt (c :: d :: cs) =>
    match reads c, branches (d :: cs) with
    | some a, some as => some (.more false (branch a) as)
    | _, _ => none
  | .greedy m lo hi cs => repReads (reads m) (quantOf lo hi .greedy) (conts cs)
  | .lazy m lo hi cs => repReads (reads m) (quantOf lo hi .lazy) (conts cs)
  | .possessive m lo hi cs => repReads (reads m) (quantOf lo hi .possessive) (conts cs)
  | .repeated m n cs =>
    repReads (reads m) (if n = 0 ∨ umax ≤ n then none else some (.exact (numberToPack n) .greedy)) (conts cs)
  | .group m _ cs =>
    if cs.length ≤ 1 then
      match reads m, conts cs with
      | some as, some s => some (.last false (.cons (.group true as) .once s))
      | _, _ => none
    else none
/-- A quantified atom and what follows. -/
def repReads : Option Alts → Option Quant → Option Sq → Option Alts
  | some as, some q, some s => (asAtom as).map (fun a => .last false (.cons a q s))
  | _, _, _ => none
/-- What follows a node. -/
def conts : List Node → Option Sq
  | [] => some (.nil false)
  | [c] => (reads c).bind asSq
  | c :: d :: cs =>
    match reads c, branches (d :: cs) with
    | some a, some as => some (branch (.more false (branch a) as))
    | _, _ => none
/-- Printed alternatives. -/
def branches : List Node → Option Alts
  | [] => none
  | [c] => (reads c).map (fun a => .last false (branch a))
  | c :: d :: cs =>
    match reads c, branches (d :: cs) with
    | some a, some as => some (.more false (branch a) as)
    | _, _ => none
end

/-! ## lemmas about the pieces -/

theorem appSq_spec : ∀ (s s' r : Sq), appSq s s' = some r → s.ok = true → s'.ok = true →
    r.ok = true ∧ r.spell = s.spell ++ s'.spell ∧ Same r.sem (.seq s.sem s'.sem) ∧ (r.empty = (s.empty && s'.empty))
  | .nil false, s', r, h, h1, h2 => by
    simp only [appSq, Option.some.injEq] at h; subst h
    refine ⟨h2, by simp [Sq.spell], ?_, by simp [Sq.empty]⟩
    intro q i j; simp [Sq.sem, Den]
  | .nil true, .nil false, r, h, h1, h2 => by
    simp only [appSq, Option.some.injEq] at h; subst h
    refine ⟨rfl, by simp [Sq.spell], ?_, by simp [Sq.empty]⟩
    intro q i j; simp [Sq.sem, Den]
  | .nil true, .nil true, r, h, h1, h2 => by simp [appSq] at h
  | .nil true, .cons _ _ _, r, h, h1, h2 => by simp [appSq] at h
  | .cons a q s, s', r, h, h1, h2 => by
    simp only [appSq, Option.map_eq_some_iff] at h
    obtain ⟨r', h3, rfl⟩ := h
    simp only [Sq.ok, Bool.and_eq_true] at h1
    obtain ⟨a1, a2, a3, _⟩ := appSq_spec s s' r' h3 h1.2 h2
    refine ⟨by simp [Sq.ok, h1.1.1, h1.1.2, a1], by simp [Sq.spell, a2], ?_, by simp [Sq.empty]⟩
    simp only [Sq.sem]
    exact (same_seq (Same.refl _) a3).trans (Same.symm (same_assoc _ _ _))

theorem asSq_spec {as : Alts} {s : Sq} (h : asSq as = some s) : as = .last false s := by
  cases as with
  | last hat s' => cases hat <;> simp [asSq] at h; rw [h]
  | more => simp [asSq] at h

theorem asAtom_spec {as : Alts} {a : Atom} (h : asAtom as = some a) : as = ofAtom a := by
  unfold asAtom at h
  split at h
  · simp only [Option.some.injEq] at h; subst h; rfl
  · simp at h

theorem ofAtom_spec (a : Atom) : (ofAtom a).ok = a.ok ∧ (ofAtom a).spell = a.spell ∧ Same (ofAtom a).sem a.sem := by
  refine ⟨by simp [ofAtom, Alts.ok, Sq.ok, Quant.ok, Sq.empty], by simp [ofAtom, Alts.spell, Sq.spell, Quant.spell], ?_⟩
  simp only [ofAtom, Alts.sem, Sq.sem, Quant.sem]
  exact same_seq_eps _

theorem chars_spec : ∀ (s : List Int), s.all plainB = true → (chars s).ok = true ∧ (chars s).spell = s ∧ Same (chars s).sem (.lit s) ∧
    ((chars s).empty = s.isEmpty)
  | [], _ => by
    refine ⟨rfl, rfl, ?_, rfl⟩
    intro q i j; simp [chars, Sq.sem, Den]; omega
  | c :: s, h => by
    simp only [List.all_cons, Bool.and_eq_true] at h
    obtain ⟨h1, h2, h3, _⟩ := chars_spec s h.2
    refine ⟨by simp [chars, Sq.ok, Atom.ok, Quant.ok, h.1, h1], by simp [chars, Sq.spell, Atom.spell, Quant.spell, h2], ?_, rfl⟩
    intro q i j
    simp only [chars, Sq.sem, Quant.sem, Atom.sem, Den]
    constructor
    · rintro ⟨k, ⟨rfl, x, hx, hxc⟩, h5⟩
      have := (h3 q (i + 1) j).1 h5
      simp only [Den] at this
      refine ⟨by simp; omega, fun k hk => ?_⟩
      cases k with
      | zero => simp at hxc; simpa [hxc] using hx
      | succ k =>
        have := this.2 k (by simp at hk; omega)
        rw [show i + (k + 1) = i + 1 + k by omega, this]; simp
    · rintro ⟨h4, h5⟩
      refine ⟨i + 1, ⟨rfl, c, by simpa using h5 0 (by simp), by simp⟩, (h3 q (i + 1) j).2 ?_⟩
      simp only [Den]
      refine ⟨by simp at h4; omega, fun k hk => ?_⟩
      have := h5 (k + 1) (by simp; omega)
      rw [show i + 1 + k = i + (k + 1) by omega, this]; simp

theorem pack_bound {n : Nat} (h0 : n ≠ 0) (h : ¬ umax ≤ n) : boundB (numberToPack n) = true ∧ (decimal (numberToPack n)).toNat = n := by
  have hd := Props.C03_printed_digits n
  have hne : numberToPack n ≠ [] := numberToPackAux_ne_nil _ _ _ (Or.inr ⟨by omega, by omega⟩)
  refine ⟨?_, by rw [hd.2]; simp⟩
  simp only [boundB, Bool.and_eq_true, Bool.not_eq_true', List.isEmpty_eq_false_iff, decide_eq_true_eq, hd.2]
  refine ⟨⟨hne, ?_⟩, ?_⟩
  · rw [List.all_eq_true]
    intro c hc
    have := hd.1 c hc
    simpa [digitB, IsDigit] using this
  · have : umax = 4294967295 := rfl
    omega

theorem quantOf_spec {lo hi : Nat} {m : QMode} {q : Quant} (h : quantOf lo hi m = some q) :
    q.ok = true ∧ q.spell = quantExpr lo hi m.spell ∧ ∀ r, q.sem r = .rep r lo (boundOf hi) := by
  unfold quantOf at h
  unfold quantExpr
  split at h
  · rename_i h1
    simp only [Option.some.injEq] at h; subst h
    refine ⟨rfl, by rw [if_pos h1]; rfl, fun r => ?_⟩
    simp [Quant.sem, boundOf, h1.1, h1.2]
  rename_i h1
  split at h
  · rename_i h2
    simp only [Option.some.injEq] at h; subst h
    refine ⟨rfl, by rw [if_neg h1, if_pos h2]; rfl, fun r => ?_⟩
    simp [Quant.sem, boundOf, h2.1, h2.2]
  rename_i h2
  split at h
  · rename_i h3
    simp only [Option.some.injEq] at h; subst h
    refine ⟨rfl, by rw [if_neg h1, if_neg h2, if_pos h3]; rfl, fun r => ?_⟩
    simp [Quant.sem, boundOf, h3.1, h3.2, umax]
  rename_i h3
  split at h
  · simp at h
  rename_i h4
  simp only [not_or] at h4
  have hl := pack_bound h4.1 h4.2
  split at h
  · rename_i h5
    simp only [Option.some.injEq] at h; subst h
    refine ⟨hl.1, by rw [if_neg h1, if_neg h2, if_neg h3, if_pos h5]; simp [Quant.spell, str], fun r => ?_⟩
    simp [Quant.sem, boundOf, h5, hl.2]
  rename_i h5
  split at h
  · simp at h
  rename_i h6
  simp only [not_or] at h6
  have hh := pack_bound h6.1 h6.2
  simp only [Option.some.injEq] at h; subst h
  refine ⟨by simp [Quant.ok, hl.1, hh.1], by rw [if_neg h1, if_neg h2, if_neg h3, if_neg h5]; simp [Quant.spell, str], fun r => ?_⟩
  simp [Quant.sem, boundOf, h5, hl.2, hh.2]

theorem branch_spec {as : Alts} (h : as.ok = true) : (branch as).ok = true ∧ (branch as).spell = str "(?:" ++ as.spell ++ str ")" ∧
    Same (branch as).sem as.sem ∧ (branch as).empty = false := by
  refine ⟨by simp [branch, Sq.ok, Atom.ok, Quant.ok, h], by simp [branch, Sq.spell, Atom.spell, Quant.spell, str], ?_, rfl⟩
  simp only [branch, Sq.sem, Quant.sem, Atom.sem]
  exact same_seq_eps _

/-- What is claimed of a reading. -/
def ReadOk (as : Alts) (text : List Int) (r : Rx) : Prop := as.ok = true ∧ as.spell = text ∧ Same as.sem r

theorem readOk_atom {a : Atom} {text : List Int} {r : Rx} (h1 : a.ok = true) (h2 : a.spell = text) (h3 : Same a.sem r) :
    ReadOk (ofAtom a) text r := by
  obtain ⟨e1, e2, e3⟩ := ofAtom_spec a
  exact ⟨by rw [e1]; exact h1, by rw [e2]; exact h2, e3.trans h3⟩

theorem concat_two (s t : List Int) (ss : List (List Int)) (h : s ≠ []) :
    concatPack (str "|") (s :: t :: ss) = s ++ 124 :: concatPack (str "|") (t :: ss) := by
  rw [concatPack]
  · simp [h, str]
  · simp

theorem repReads_spec {m as : Alts} {oq : Option Quant} {os : Option Sq} {q : Quant} {s : Sq} (hq : oq = some q) (hs : os = some s) :
    repReads (some m) oq os = some as → ∃ a, m = ofAtom a ∧ as = .last false (.cons a q s) := by
  subst hq hs
  simp only [repReads, Option.map_eq_some_iff]
  rintro ⟨a, h1, rfl⟩
  exact ⟨a, asAtom_spec h1, rfl⟩

theorem rep_ok {om : Option Alts} {oq : Option Quant} {os : Option Sq} {as : Alts} (h : repReads om oq os = some as)
    {tm tq ts : List Int} {rm rs : Rx} {lo : Nat} {hi : Option Nat}
    (hm : ∀ a, om = some a → ReadOk a tm rm)
    (hq : ∀ q, oq = some q → q.ok = true ∧ q.spell = tq ∧ ∀ r, q.sem r = .rep r lo hi)
    (hs : ∀ s, os = some s → s.ok = true ∧ s.spell = ts ∧ Same s.sem rs) :
    ReadOk as (tm ++ tq ++ ts) (.seq (.rep rm lo hi) rs) := by
  cases om with
  | none => simp [repReads] at h
  | some m =>
    cases oq with
    | none => simp [repReads] at h
    | some q =>
      cases os with
      | none => simp [repReads] at h
      | some s =>
        obtain ⟨a, rfl, rfl⟩ := repReads_spec rfl rfl h
        obtain ⟨e1, e2, e3⟩ := ofAtom_spec a
        obtain ⟨m1, m2, m3⟩ := hm _ rfl
        obtain ⟨q1, q2, q3⟩ := hq _ rfl
        obtain ⟨s1, s2, s3⟩ := hs _ rfl
        refine ⟨by simp [Alts.ok, Sq.ok, Sq.empty, ← e1, m1, q1, s1], ?_, ?_⟩
        · simp [Alts.spell, Sq.spell, ← e2, m2, q2, s2]
        · simp only [Alts.sem, Sq.sem, q3]
          exact same_seq (same_rep (Same.symm e3 |>.trans m3) _ _) s3

theorem group_expr (cs : List Node) (h : cs.length ≤ 1) : childrenExpr (exprsOf cs) = wrapChildren (exprsOf cs) := by
  match cs with
  | [] => rfl
  | [c] => rfl
  | c :: d :: cs => simp at h

mutual
theorem reads_ok : ∀ (t : Node) (as : Alts), reads t = some as → ReadOk as (exprOf t) (toRx t)
  | .exact s d, as, h => by
    simp only [reads] at h
    split at h
    · rename_i hc
      simp only [Option.some.injEq] at h; subst h
      obtain ⟨h1, h2, h3, h4⟩ := chars_spec s hc.2.2
      refine ⟨?_, by simp [Alts.spell, h2, exprOf, hc.1], by simpa [Alts.sem, toRx] using h3⟩
      simp [Alts.ok, h1, h4, hc.2.1]
    · simp at h
  | .range a b d, as, h => by
    simp only [reads] at h
    split at h
    · rename_i hc
      simp only [Option.some.injEq] at h; subst h
      refine readOk_atom ?_ (by simp [Atom.spell, Item.spell, exprOf, hc.1]) ?_
      · simp [Atom.ok, hc.2]
      · simp only [Atom.sem, toRx, listed, List.any_cons, List.any_nil, Bool.or_false, Bool.false_and, Item.test, Bool.bne_false]
        exact Same.refl _
    · simp at h
  | .space, as, h => by
    simp only [reads, Option.some.injEq] at h; subst h
    refine readOk_atom (by decide) rfl ?_
    have e : ∀ p p' : Int → Bool, (∀ x, p x = p' x) → Same (.cls p) (.cls p') := fun p p' h => by
      rw [show p = p' from funext h]; exact Same.refl _
    simp only [Atom.sem, toRx]
    exact e _ _ (fun x => by simp [escape])
  | .word, as, h => by
    simp only [reads, Option.some.injEq] at h; subst h
    refine readOk_atom (by decide) rfl ?_
    have e : ∀ p p' : Int → Bool, (∀ x, p x = p' x) → Same (.cls p) (.cls p') := fun p p' h => by
      rw [show p = p' from funext h]; exact Same.refl _
    simp only [Atom.sem, toRx]
    exact e _ _ (fun x => by simp [escape])
  | .any, as, h => by
    simp only [reads, Option.some.injEq] at h; subst h
    exact readOk_atom (by decide) rfl (Same.refl _)
  | .bos, as, h => by
    simp only [reads, Option.some.injEq] at h; subst h
    refine ⟨by decide, by decide, ?_⟩
    simp only [Alts.sem, toRx, if_true, Sq.sem]
    exact same_seq_eps _
  | .eol, as, h => by
    simp only [reads, Option.some.injEq] at h; subst h
    refine ⟨by decide, by decide, ?_⟩
    simp only [Alts.sem, toRx, if_true, Sq.sem, Bool.false_eq_true, if_false]
    exact Same.refl _
  | .negated m, as, h => by
    have neg : ∀ (p : Int → Bool) (i : Item), ClassOf m p → (∀ x, i.test x = p x) →
        Same (Atom.cls true [i] false).sem (toRx (.negated m)) := by
      intro p i hc hp
      have := classOf_negated hc
      refine Same.symm ((same_classOf this).trans ?_)
      simp only [Atom.sem, listed, List.any_cons, List.any_nil, Bool.or_false, Bool.false_and, hp, Bool.bne_true]
      exact Same.refl _
    cases m with
    | exact s d =>
      simp only [reads] at h
      split at h
      · rename_i hc
        simp only [Option.some.injEq] at h; subst h
        obtain ⟨h1, h2, h3⟩ := hc
        obtain ⟨c, rfl⟩ := List.length_eq_one_iff.1 h2
        simp only [List.all_cons, List.all_nil, Bool.and_true] at h3
        refine readOk_atom ?_ ?_ (neg _ (.chr c) (classOf_exact c d) (fun x => rfl))
        · simp [Atom.ok, Item.ok, h3]
        · simp [Atom.spell, Item.spell, exprOf, h1, str]
      · simp at h
    | word =>
      simp only [reads, Option.some.injEq] at h; subst h
      exact readOk_atom (by decide) (by decide) (neg _ (.esc 119) (classOf_cls rfl) (fun x => by simp [Item.test, escape]))
    | space =>
      simp only [reads, Option.some.injEq] at h; subst h
      exact readOk_atom (by decide) (by decide) (neg _ (.esc 115) (classOf_cls rfl) (fun x => by simp [Item.test, escape]))
    | _ => simp [reads] at h
  | .simple m cs, as, h => by
    simp only [reads] at h
    split at h
    · rename_i hat s s' hm hc
      simp only [Option.map_eq_some_iff] at h
      obtain ⟨r, hr, rfl⟩ := h
      obtain ⟨m1, m2, m3⟩ := reads_ok m _ hm
      obtain ⟨c1, c2, c3⟩ := conts_ok cs _ hc
      simp only [Alts.ok, Bool.and_eq_true] at m1
      obtain ⟨r1, r2, r3, r4⟩ := appSq_spec s s' r hr m1.1 c1
      refine ⟨?_, ?_, ?_⟩
      · simp only [Alts.ok, r1, r4, Bool.true_and]
        have := m1.2
        cases hat <;> simp at this ⊢
        exact Or.inl this
      · simp only [Alts.spell] at m2 ⊢
        rw [r2, exprOf, ← m2, ← c2]; simp
      · simp only [Alts.sem, toRx] at m3 ⊢
        cases hat with
        | false =>
          simp only [Bool.false_eq_true, if_false] at m3 ⊢
          exact r3.trans (same_seq m3 c3)
        | true =>
          simp only [if_true] at m3 ⊢
          exact ((same_seq (Same.refl _) r3).trans (Same.symm (same_assoc _ _ _))).trans (same_seq m3 c3)
    · simp at h
  | .alt [], as, h => by simp [reads] at h
  | .alt [c], as, h => by
    simp only [reads] at h
    obtain ⟨h1, h2, h3⟩ := reads_ok c as h
    exact ⟨h1, by simpa [exprOf, exprsOf, childrenExpr] using h2, h3.trans (Same.symm (same_cont_one c))⟩
  | .alt (c :: d :: cs), as, h => by
    simp only [reads] at h
    split at h
    · rename_i a bs ha hb
      simp only [Option.some.injEq] at h; subst h
      exact two_ok (reads_ok c a ha) (branches_ok (d :: cs) bs hb)
    · simp at h
  | .greedy m lo hi cs, as, h => by
    simp only [reads] at h
    have := rep_ok h (fun a ha => reads_ok m a ha) (fun q hq => quantOf_spec hq) (fun s hs => conts_ok cs s hs)
    simpa [exprOf, toRx, QMode.spell] using this
  | .lazy m lo hi cs, as, h => by
    simp only [reads] at h
    have := rep_ok h (fun a ha => reads_ok m a ha) (fun q hq => quantOf_spec hq) (fun s hs => conts_ok cs s hs)
    simpa [exprOf, toRx, QMode.spell, str] using this
  | .possessive m lo hi cs, as, h => by
    simp only [reads] at h
    have := rep_ok h (fun a ha => reads_ok m a ha) (fun q hq => quantOf_spec hq) (fun s hs => conts_ok cs s hs)
    simpa [exprOf, toRx, QMode.spell, str] using this
  | .repeated m n cs, as, h => by
    simp only [reads] at h
    have := rep_ok (tq := str "{" ++ numberToPack n ++ str "}") (lo := n) (hi := some n) h (fun a ha => reads_ok m a ha)
      (fun q hq => by
        split at hq
        · simp at hq
        · rename_i hn
          simp only [not_or] at hn
          simp only [Option.some.injEq] at hq; subst hq
          have := pack_bound hn.1 hn.2
          exact ⟨this.1, by simp [Quant.spell, QMode.spell, str], fun r => by simp [Quant.sem, this.2]⟩)
      (fun s hs => conts_ok cs s hs)
    simpa [exprOf, toRx] using this
  | .group m i cs, as, h => by
    simp only [reads] at h
    split at h
    · rename_i hl
      split at h
      · rename_i bs s hm hc
        simp only [Option.some.injEq] at h; subst h
        obtain ⟨m1, m2, m3⟩ := reads_ok m _ hm
        obtain ⟨c1, c2, c3⟩ := conts_ok cs _ hc
        refine ⟨by simp [Alts.ok, Sq.ok, Atom.ok, Quant.ok, Sq.empty, m1, c1], ?_, ?_⟩
        · simp [Alts.spell, Sq.spell, Atom.spell, Quant.spell, exprOf, m2, c2, group_expr cs hl, str]
        · simp only [Alts.sem, Sq.sem, Atom.sem, Quant.sem, toRx, Bool.false_eq_true, if_false]
          exact same_seq m3 c3
      · simp at h
    · simp at h
theorem two_ok {c d : Node} {cs : List Node} {a bs : Alts} (h1 : ReadOk a (exprOf c) (toRx c))
    (h2 : ReadOk bs (concatPack (str "|") ((exprsOf (d :: cs)).map (fun e => str "(?:" ++ e ++ str ")"))) (altOf (toRxs (d :: cs)))) :
    ReadOk (.more false (branch a) bs) (childrenExpr (exprsOf (c :: d :: cs))) (contOf (toRxs (c :: d :: cs))) := by
  obtain ⟨b1, b2, b3, b4⟩ := branch_spec h1.1
  refine ⟨by simp [Alts.ok, b1, b4, h2.1], ?_, ?_⟩
  · simp only [Alts.spell, b2, h2.2.1, h1.2.1, exprsOf, childrenExpr, List.map_cons]
    rw [concat_two _ _ _ (by simp [str])]
    simp
  · simp only [Alts.sem, toRxs, contOf, altOf, Bool.false_eq_true, if_false]
    exact same_alt (b3.trans h1.2.2) h2.2.2
theorem conts_ok : ∀ (cs : List Node) (s : Sq), conts cs = some s →
    s.ok = true ∧ s.spell = wrapChildren (exprsOf cs) ∧ Same s.sem (contOf (toRxs cs))
  | [], s, h => by
    simp only [conts, Option.some.injEq] at h; subst h
    exact ⟨rfl, rfl, by simp only [Sq.sem, toRxs, contOf, Bool.false_eq_true, if_false]; exact Same.refl _⟩
  | [c], s, h => by
    simp only [conts, Option.bind_eq_some_iff] at h
    obtain ⟨as, h1, h2⟩ := h
    have := asSq_spec h2
    subst this
    obtain ⟨m1, m2, m3⟩ := reads_ok c _ h1
    simp only [Alts.ok, Bool.and_eq_true] at m1
    refine ⟨m1.1, by simpa [Alts.spell, exprsOf, wrapChildren, childrenExpr] using m2, ?_⟩
    simp only [Alts.sem, Bool.false_eq_true, if_false] at m3
    exact m3.trans (Same.symm (same_cont_one c))
  | c :: d :: cs, s, h => by
    simp only [conts] at h
    split at h
    · rename_i a bs ha hb
      simp only [Option.some.injEq] at h; subst h
      have h2 := two_ok (reads_ok c a ha) (branches_ok (d :: cs) bs hb)
      obtain ⟨b1, b2, b3, _⟩ := branch_spec h2.1
      refine ⟨b1, ?_, b3.trans h2.2.2⟩
      rw [b2, h2.2.1]
      simp [wrapChildren, exprsOf]
    · simp at h
theorem branches_ok : ∀ (cs : List Node) (as : Alts), branches cs = some as →
    ReadOk as (concatPack (str "|") ((exprsOf cs).map (fun e => str "(?:" ++ e ++ str ")"))) (altOf (toRxs cs))
  | [], as, h => by simp [branches] at h
  | [c], as, h => by
    simp only [branches, Option.map_eq_some_iff] at h
    obtain ⟨a, ha, rfl⟩ := h
    have h1 := reads_ok c a ha
    obtain ⟨b1, b2, b3, b4⟩ := branch_spec h1.1
    refine ⟨by simp [Alts.ok, b1, b4], by simp [Alts.spell, b2, h1.2.1, exprsOf, concatPack], ?_⟩
    simp only [Alts.sem, toRxs, altOf, Bool.false_eq_true, if_false]
    exact b3.trans h1.2.2
  | c :: d :: cs, as, h => by
    simp only [branches] at h
    split at h
    · rename_i a bs ha hb
      simp only [Option.some.injEq] at h; subst h
      have := two_ok (reads_ok c a ha) (branches_ok (d :: cs) bs hb)
      simpa only [exprsOf, childrenExpr, toRxs, contOf] using this
    · simp at h
end

end ERegex

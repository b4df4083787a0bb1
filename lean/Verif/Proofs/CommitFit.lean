import Verif.Proofs.CommitRun
import Verif.Proofs.Sure
import Verif.Proofs.Numbering
/-!
# The trees of patterns with groups nested to any depth, before and after optimization
-/
set_option autoImplicit false
namespace ERegex
open ERegex.Spec

/-- A greedy quantifier that may stay what it is. -/
def soft (a : Atom) (k : Quant) (s : Sq) : Bool := !s.empty && !(k.lo == 0 && k.hi == some 1) && a.slips (fun _ => false) && s.slips (fun _ => true)

/-- The node of a quantified atom and what follows it; with `fl` a greedy one has no use for what it could give back. -/
def Hangs (fl : Bool) (a : Atom) (k : Quant) (s : Sq) (m : Node) (ds : List Node) (nd : Node) : Prop :=
  if k.isOnce then (ds = [] ∧ nd = m) ∨ (a.isCap = false ∧ nd = .simple m ds) ∨ (a.isCap = true ∧ ∃ x j, m = .group x j [] ∧ nd = .group x j ds)
  else if k.fixed then nd = .repeated m k.lo ds
  else (k.mode = .greedy ∧ (fl = true → soft a k s = true) ∧ nd = .greedy m k.lo k.hiN ds) ∨ (fl = false ∧ nd = .lazy m k.lo k.hiN ds) ∨ nd = .possessive m k.lo k.hiN ds

/-- The node of alternatives. -/
def Joined (ms : List Node) (x : Node) : Prop := x = .alt ms ∨ ms = [x]

/-- The node of one alternative. -/
def PieceFit (hat : Bool) (F : List Node → Prop) (m : Node) : Prop := if hat then ∃ cs, cs ≠ [] ∧ F cs ∧ m = .simple .bos cs else F [m]

mutual
/-- A tree of the atom whose first group has number `n`. -/
def _root_.ERegex.Spec.Atom.Fit (fl : Bool) : Atom → Nat → Node → Prop
  | .group true as, n, m => ∃ x ms, m = .group x n [] ∧ as.Row fl (n + 1) ms ∧ Joined ms x
  | .group false as, n, m => ∃ x ms, (m = x ∨ m = .simple x []) ∧ as.Row fl n ms ∧ Joined ms x
  | .chr x, _, m => Atomic (.chr x) m
  | .esc x, _, m => Atomic (.esc x) m
  | .dot, _, m => Atomic .dot m
  | .hex x y, _, m => Atomic (.hex x y) m
  | .oct x y z, _, m => Atomic (.oct x y z) m
  | .cls neg items dash, _, m => Atomic (.cls neg items dash) m
/-- Trees of a sequence (none or one). -/
def _root_.ERegex.Spec.Sq.Fit (fl : Bool) : Sq → Nat → List Node → Prop
  | .nil d, _, cs => if d then cs = [.simple .eol []] ∨ cs = [.eol] else cs = []
  | .cons a k s, n, cs => (∃ m ds nd, cs = [nd] ∧ a.Fit fl n m ∧ s.Fit fl (n + a.count) ds ∧ Hangs fl a k s m ds nd) ∨
    (fl = true ∧ k.isOnce = true ∧ a.lends s = true ∧ ∃ m lo hi ds, cs = [.group (.greedy m lo hi []) n ds] ∧ a.Fit fl n (.group (.possessive m lo hi []) n []) ∧
      s.Fit fl (n + a.count) ds)
/-- Trees of the alternatives. -/
def _root_.ERegex.Spec.Alts.Row (fl : Bool) : Alts → Nat → List Node → Prop
  | .last hat s, n, ms => ∃ m, ms = [m] ∧ PieceFit hat (s.Fit fl n) m
  | .more hat s as, n, ms => ∃ m ms', ms = m :: ms' ∧ PieceFit hat (s.Fit fl n) m ∧ as.Row fl (n + s.count) ms'
end

section
variable {fl : Bool}

theorem lends_cap {a : Atom} {s : Sq} (h : a.lends s = true) : a.isCap = true := by
  unfold Atom.lends at h
  split at h
  · rfl
  · cases h

theorem fit_flat {a : Atom} (h : ∀ c as, a ≠ .group c as) (n : Nat) (m : Node) : a.Fit fl n m ↔ Atomic a m := by
  cases a <;> first | exact Iff.rfl | exact absurd rfl (h _ _)

theorem opts_map (cs : List Node) : opts cs = cs.map (fun m => opt m []) := by
  induction cs with
  | nil => rfl
  | cons c cs ih => simp [opts, ih]

theorem fit_len : ∀ (s : Sq) (n : Nat) (cs : List Node), s.Fit fl n cs → (cs = [] ∧ s = .nil false) ∨ ∃ c, cs = [c]
  | .nil d, n, cs, h => by
    cases d with
    | false => left; exact ⟨h, rfl⟩
    | true => right; rcases h with h | h <;> exact ⟨_, h⟩
  | .cons a k s, n, cs, h => by
    rcases h with ⟨m, ds, nd, h, _⟩ | ⟨_, _, _, m, lo, hi, ds, h, _⟩
    · exact .inr ⟨nd, h⟩
    · exact .inr ⟨_, h⟩

theorem fit_opts {s : Sq} {n : Nat} {cs : List Node} (h : s.Fit fl n cs) (ih : ∀ inj, s.Fit fl n (cs.map (fun m => opt m inj))) : s.Fit fl n (opts cs) := by
  rw [opts_map]; exact ih []

theorem row_ne : ∀ (as : Alts) (n : Nat) (ms : List Node), as.Row fl n ms → ms ≠ []
  | .last .., n, ms, h => by obtain ⟨m, rfl, _⟩ := h; simp
  | .more .., n, ms, h => by obtain ⟨m, ms', rfl, _⟩ := h; simp

theorem hangs_opt {a : Atom} {k : Quant} {s : Sq} {m : Node} {ds : List Node} {nd : Node} {n : Nat} (h : Hangs fl a k s m ds nd) (hm : ∀ inj, a.Fit fl n (opt m inj))
    (inj : List (List Int)) : ∃ m', a.Fit fl n m' ∧ Hangs fl a k s m' (opts ds) (opt nd inj) := by
  unfold Hangs at h
  split at h
  · rename_i hk
    rcases h with ⟨rfl, rfl⟩ | ⟨hc, rfl⟩ | ⟨hc, x, j, rfl, rfl⟩
    · exact ⟨_, hm inj, by unfold Hangs; rw [if_pos hk]; exact .inl ⟨rfl, rfl⟩⟩
    · cases ds with
      | nil => exact ⟨_, hm inj, by unfold Hangs; rw [if_pos hk]; exact .inl ⟨rfl, by simp [opt]⟩⟩
      | cons d ds => exact ⟨_, hm inj, by unfold Hangs; rw [if_pos hk]; exact .inr (.inl ⟨hc, by simp [opt, opts]⟩)⟩
    · refine ⟨_, hm (admSets ds ++ inj), ?_⟩
      unfold Hangs; rw [if_pos hk]
      exact .inr (.inr ⟨hc, opt x (admSets ds ++ inj), j, by simp [opt, opts, admSets], by simp [opt]⟩)
  · rename_i hk
    split at h
    · rename_i hf
      subst h
      exact ⟨_, hm [], by unfold Hangs; rw [if_neg hk, if_pos hf]; simp [opt]⟩
    · rename_i hf
      refine ⟨_, hm [], ?_⟩
      unfold Hangs; rw [if_neg hk, if_neg hf]
      rcases h with ⟨hg, hso, rfl⟩ | ⟨hfl, rfl⟩ | rfl
      · simp only [opt]
        split
        · exact .inr (.inr rfl)
        · exact .inl ⟨hg, hso, rfl⟩
      · simp only [opt]
        split
        · exact .inr (.inr rfl)
        · exact .inr (.inl ⟨hfl, rfl⟩)
      · exact .inr (.inr (by rw [opt]))

theorem joined_opt {P : List Node → Prop} {ms : List Node} {x : Node} (h : Joined ms x) (h1 : P (opts ms)) (h2 : ∀ m, ms = [m] → ∀ inj, P [opt m inj]) (hne : ms ≠ [])
    (inj : List (List Int)) : ∃ ms', P ms' ∧ Joined ms' (opt x inj) := by
  rcases h with rfl | rfl
  · match ms, hne with
    | [], h => exact absurd rfl h
    | [c], _ => exact ⟨[opt c inj], h2 c rfl inj, .inr (by simp [opt])⟩
    | c :: d :: cs, _ => exact ⟨_, h1, .inl (by simp [opt, opts])⟩
  · exact ⟨[opt x inj], h2 x rfl inj, .inr rfl⟩

mutual
theorem atom_fit_opt : ∀ (a : Atom) (n : Nat) (m : Node), a.Fit fl n m → ∀ inj, a.Fit fl n (opt m inj)
  | .group true as, n, m, h, inj => by
    obtain ⟨x, ms, rfl, h1, h2⟩ := h
    obtain ⟨h3, h4⟩ := row_fit_opt as (n + 1) ms h1
    obtain ⟨ms', h5, h6⟩ := joined_opt (P := as.Row fl (n + 1)) h2 h3 h4 (row_ne _ _ _ h1) (admSets [] ++ inj)
    exact ⟨_, ms', by simp only [opt, opts], h5, h6⟩
  | .group false as, n, m, h, inj => by
    obtain ⟨x, ms, hm, h1, h2⟩ := h
    obtain ⟨h3, h4⟩ := row_fit_opt as n ms h1
    obtain ⟨ms', h5, h6⟩ := joined_opt (P := as.Row fl n) h2 h3 h4 (row_ne _ _ _ h1) inj
    refine ⟨_, ms', .inl ?_, h5, h6⟩
    rcases hm with rfl | rfl
    · rfl
    · simp only [opt]
  | .chr x, n, m, h, inj => by
    have h : Atomic (.chr x) m := h
    show Atomic _ _; rw [h.opt_inj]; exact h.opt
  | .esc x, n, m, h, inj => by
    have h : Atomic (.esc x) m := h
    show Atomic _ _; rw [h.opt_inj]; exact h.opt
  | .dot, n, m, h, inj => by
    have h : Atomic .dot m := h
    show Atomic _ _; rw [h.opt_inj]; exact h.opt
  | .hex x y, n, m, h, inj => by
    have h : Atomic (.hex x y) m := h
    show Atomic _ _; rw [h.opt_inj]; exact h.opt
  | .oct x y z, n, m, h, inj => by
    have h : Atomic (.oct x y z) m := h
    show Atomic _ _; rw [h.opt_inj]; exact h.opt
  | .cls neg items dash, n, m, h, inj => by
    have h : Atomic (.cls neg items dash) m := h
    show Atomic _ _; rw [h.opt_inj]; exact h.opt
theorem sq_fit_opt : ∀ (s : Sq) (n : Nat) (cs : List Node), s.Fit fl n cs → ∀ inj, s.Fit fl n (cs.map (fun m => opt m inj))
  | .nil d, n, cs, h, inj => by
    cases d with
    | false => have h : cs = [] := h; subst h; exact (rfl : ([] : List Node) = [])
    | true =>
      rcases h with h | h
      · have h : cs = [.simple .eol []] := h
        subst h; exact .inr (by simp [opt])
      · have h : cs = [.eol] := h
        subst h; exact .inr (by simp [opt])
  | .cons a k s, n, cs, h, inj => by
    rcases h with ⟨m, ds, nd, rfl, h1, h2, h3⟩ | ⟨hf, hk, hl, m, lo, hi, ds, rfl, h1, h2⟩
    · obtain ⟨m', h4, h5⟩ := hangs_opt h3 (atom_fit_opt a n m h1) inj
      exact .inl ⟨m', opts ds, _, rfl, h4, by rw [opts_map]; exact sq_fit_opt s _ ds h2 [], h5⟩
    · have h3 := atom_fit_opt a n _ h1 []
      simp only [opt, opts] at h3
      have h4 : s.Fit fl (n + a.count) (opts ds) := by rw [opts_map]; exact sq_fit_opt s _ ds h2 []
      simp only [List.map_cons, List.map_nil]
      rw [opt, opt]
      split
      · refine .inl ⟨_, opts ds, _, rfl, h3, h4, ?_⟩
        unfold Hangs; rw [if_pos hk]
        exact .inr (.inr ⟨lends_cap hl, _, _, rfl, rfl⟩)
      · exact .inr ⟨hf, hk, hl, _, _, _, _, rfl, h3, h4⟩
theorem row_fit_opt : ∀ (as : Alts) (n : Nat) (ms : List Node), as.Row fl n ms → as.Row fl n (opts ms) ∧ ∀ m, ms = [m] → ∀ inj, as.Row fl n [opt m inj]
  | .last hat s, n, ms, h => by
    obtain ⟨m, rfl, h1⟩ := h
    have key : ∀ inj, PieceFit hat (s.Fit fl n) (opt m inj) := by
      intro inj
      cases hat with
      | false => exact sq_fit_opt s n [m] h1 inj
      | true =>
        obtain ⟨cs, hne, h2, rfl⟩ := h1
        refine ⟨opts cs, ?_, by rw [opts_map]; exact sq_fit_opt s n cs h2 [], ?_⟩
        · cases cs with
          | nil => exact absurd rfl hne
          | cons => simp [opts]
        · cases cs with
          | nil => exact absurd rfl hne
          | cons => simp [opt, opts]
    refine ⟨⟨_, rfl, key []⟩, fun m' e inj => ?_⟩
    simp only [List.cons.injEq, and_true] at e; subst e
    exact ⟨_, rfl, key inj⟩
  | .more hat s as, n, ms, h => by
    obtain ⟨m, ms', rfl, h1, h2⟩ := h
    have key : PieceFit hat (s.Fit fl n) (opt m []) := by
      cases hat with
      | false => exact sq_fit_opt s n [m] h1 []
      | true =>
        obtain ⟨cs, hne, h2, rfl⟩ := h1
        refine ⟨opts cs, ?_, by rw [opts_map]; exact sq_fit_opt s n cs h2 [], ?_⟩
        · cases cs with
          | nil => exact absurd rfl hne
          | cons => simp [opts]
        · cases cs with
          | nil => exact absurd rfl hne
          | cons => simp [opt, opts]
    refine ⟨⟨_, _, rfl, key, (row_fit_opt as _ ms' h2).1⟩, fun m' e inj => ?_⟩
    simp only [List.cons.injEq] at e
    exact absurd e.2 (row_ne _ _ _ h2)
end

end

/-! ## the trees the builder makes -/

theorem hangs_tree {a : Atom} {k : Quant} {s : Sq} (hk : k.ok = true) {m : Node} (hm : opens m = true)
    (hc : a.isCap = true → ∃ x j, m = .group x j []) (hs : a.isCap = false → ∃ x, m = .simple x []) (o : Option Node) :
    (∃ ds, (o = none ∧ ds = [] ∨ ∃ c, o = some c ∧ ds = [c]) ∧ ∃ m', (m' = m ∨ m = .simple m' []) ∧ Hangs false a k s m' ds (graft (quantTree m k) o)) := by
  have quant : ∀ (nd : List Node → Node), (∀ c, addChild (some (nd [])) c = some (nd [c])) → quantTree m k = nd [] → (∀ ds, Hangs false a k s m ds (nd ds)) →
      (∃ ds, (o = none ∧ ds = [] ∨ ∃ c, o = some c ∧ ds = [c]) ∧ ∃ m', (m' = m ∨ m = .simple m' []) ∧ Hangs false a k s m' ds (graft (quantTree m k) o)) := by
    intro nd h1 h2 h3
    cases o with
    | none => exact ⟨[], .inl ⟨rfl, rfl⟩, m, .inl rfl, by rw [h2]; exact h3 []⟩
    | some c => exact ⟨[c], .inr ⟨c, rfl, rfl⟩, m, .inl rfl, by rw [h2]; simp only [graft, h1, Option.getD_some]; exact h3 [c]⟩
  have pol : ∀ (md : QMode) (lo hi : Nat), k.mode = md → k.isOnce = false → k.fixed = false → k.lo = lo → k.hiN = hi → quantTree m k = (polOf md).node m lo hi →
      (∃ ds, (o = none ∧ ds = [] ∨ ∃ c, o = some c ∧ ds = [c]) ∧ ∃ m', (m' = m ∨ m = .simple m' []) ∧ Hangs false a k s m' ds (graft (quantTree m k) o)) := by
    intro md lo hi h0 h1 h2 h3 h4 h5
    cases md with
    | greedy => exact quant (fun ds => .greedy m lo hi ds) (fun c => rfl) h5 (fun ds => by simp [Hangs, h0, h1, h2, h3, h4])
    | lazy => exact quant (fun ds => .lazy m lo hi ds) (fun c => rfl) h5 (fun ds => by simp [Hangs, h1, h2, h3, h4])
    | possessive => exact quant (fun ds => .possessive m lo hi ds) (fun c => rfl) h5 (fun ds => by simp [Hangs, h1, h2, h3, h4])
  cases k with
  | once =>
    cases hcap : a.isCap with
    | true =>
      obtain ⟨x, j, rfl⟩ := hc hcap
      refine quant (fun ds => .group x j ds) (fun c => rfl) rfl (fun ds => ?_)
      simp [Hangs, Quant.isOnce, hcap]
    | false =>
      obtain ⟨x, rfl⟩ := hs hcap
      cases o with
      | none => exact ⟨[], .inl ⟨rfl, rfl⟩, .simple x [], .inl rfl, by simp [Hangs, Quant.isOnce, quantTree, graft]⟩
      | some c => exact ⟨[c], .inr ⟨c, rfl, rfl⟩, x, .inr rfl, by simp [Hangs, Quant.isOnce, quantTree, graft, addChild, hcap]⟩
  | exact d md => exact quant (fun ds => .repeated m (decimal d).toNat ds) (fun c => rfl) rfl (fun ds => by simp [Hangs, Quant.isOnce, Quant.fixed, Quant.lo])
  | star md => exact pol md _ _ rfl rfl rfl rfl rfl rfl
  | plus md => exact pol md _ _ rfl rfl rfl rfl rfl rfl
  | opt md => exact pol md _ _ rfl rfl rfl rfl rfl rfl
  | atLeast d md => exact pol md _ _ rfl rfl rfl rfl rfl rfl
  | between d e md => exact pol md _ _ rfl rfl rfl rfl rfl rfl

theorem allc {l : List Int} (h : ∀ x ∈ l, x ∈ allChars) : l.all allChars.contains = true := by
  rw [List.all_eq_true]; intro x hx; simpa using h x hx

/-- Shape of the node of an atom. -/
structure AtomFit (a : Atom) (n : Nat) (m : Node) : Prop where
  fit : a.Fit false n m
  inner : ∀ m', m = .simple m' [] → a.Fit false n m'
  cap : a.isCap = true → ∃ x j, m = .group x j []
  cls : a.isCap = false → ∃ x, m = .simple x []

theorem char_fit {a : Atom} (hg : ∀ c as, a ≠ .group c as) (h : a.ok = true) (hp : a.plainly = true) (hc : ∀ x ∈ a.spell, x ∈ allChars) (g n : Nat) :
    AtomFit a n (a.tree g).1 := by
  have hs : (a.steady || a.skips) = true := by
    cases a <;> first | (simp only [Atom.plainly, Bool.and_eq_true] at hp; exact hp.2) | exact absurd rfl (hg _ _)
  obtain ⟨h1, x, h2, h3⟩ := atom_adm h hs (allc hc) g
  refine ⟨(fit_flat hg _ _).2 h1, fun m' e => ?_, fun hcap => ?_, fun _ => ⟨x, h2⟩⟩
  · rw [h2] at e; cases e; exact (fit_flat hg _ _).2 h3
  · cases a <;> first | exact absurd rfl (hg _ _) | cases hcap

theorem piece_fit {hat : Bool} {s : Sq} {g n : Nat} (he : s.empty = false) (h : ∃ cs, (s.tree g = none ∧ cs = [] ∨ ∃ c, s.tree g = some c ∧ cs = [c]) ∧ s.Fit false n cs) :
    PieceFit hat (s.Fit false n) (pieceTree hat s g) := by
  obtain ⟨c, hc⟩ := tree_some s g he
  obtain ⟨cs, h1, h2⟩ := h
  rw [hc] at h1
  rcases h1 with ⟨h1, _⟩ | ⟨c', h1, rfl⟩
  · cases h1
  · cases h1
    cases hat with
    | false => simp only [PieceFit, pieceTree, hc, Bool.false_eq_true, if_false, Option.getD_some]; exact h2
    | true =>
      simp only [PieceFit, pieceTree, hc, if_true]
      exact ⟨[c], by simp, h2, by simp [graft, addChild]⟩

mutual
theorem atom_fit : ∀ (a : Atom), a.ok = true → a.plainly = true → (∀ x ∈ a.spell, x ∈ allChars) → ∀ g n, a.lined g n = true → AtomFit a n (a.tree g).1
  | .group true as, h, hp, hc, g, n, hl => by
    simp only [Atom.lined, Bool.and_eq_true, beq_iff_eq] at hl
    simp only [Atom.plainly, Bool.and_eq_true] at hp
    obtain ⟨rfl, hl⟩ := hl
    have := alts_fit as (by simpa [Atom.ok] using h) hp.2 (fun x hx => hc x (by simp [Atom.spell, hx])) (g + 1) (g + 1) hl
    refine ⟨⟨_, _, rfl, this, .inl rfl⟩, fun m' e => by simp [Atom.tree] at e, fun _ => ⟨_, _, rfl⟩, fun e => (by cases e)⟩
  | .group false as, h, hp, hc, g, n, hl => by
    simp only [Atom.lined] at hl
    simp only [Atom.plainly, Bool.and_eq_true] at hp
    have := alts_fit as (by simpa [Atom.ok] using h) hp.2 (fun x hx => hc x (by simp [Atom.spell, hx])) g n hl
    refine ⟨⟨_, _, .inr rfl, this, .inl rfl⟩, fun m' e => ?_, fun e => (by cases e), fun _ => ⟨_, rfl⟩⟩
    simp only [Atom.tree, Node.simple.injEq, and_true] at e
    exact ⟨_, _, .inl e.symm, this, .inl rfl⟩
  | .chr x, h, hp, hc, g, n, _ => char_fit (by simp) h hp hc g n
  | .esc x, h, hp, hc, g, n, _ => char_fit (by simp) h hp hc g n
  | .dot, h, hp, hc, g, n, _ => char_fit (by simp) h hp hc g n
  | .hex x y, h, hp, hc, g, n, _ => char_fit (by simp) h hp hc g n
  | .oct x y z, h, hp, hc, g, n, _ => char_fit (by simp) h hp hc g n
  | .cls neg items dash, h, hp, hc, g, n, _ => char_fit (by simp) h hp hc g n
theorem sq_fit : ∀ (s : Sq), s.ok = true → s.plainly = true → (∀ x ∈ s.spell, x ∈ allChars) → ∀ g n, s.lined g n = true →
    ∃ cs, (s.tree g = none ∧ cs = [] ∨ ∃ c, s.tree g = some c ∧ cs = [c]) ∧ s.Fit false n cs
  | .nil false, _, _, _, g, n, _ => ⟨[], .inl ⟨rfl, rfl⟩, (rfl : ([] : List Node) = [])⟩
  | .nil true, _, _, _, g, n, _ => ⟨_, .inr ⟨_, rfl, rfl⟩, .inl rfl⟩
  | .cons a k s, h, hp, hc, g, n, hl => by
    simp only [Sq.ok, Bool.and_eq_true] at h
    simp only [Sq.plainly, Bool.and_eq_true] at hp
    simp only [Sq.lined, Bool.and_eq_true] at hl
    have h1 := atom_fit a h.1.1 hp.1.1.1.1 (fun x hx => hc x (by simp [Sq.spell, hx])) g n hl.1
    obtain ⟨cs, h2, h3⟩ := sq_fit s h.2 hp.2 (fun x hx => hc x (by simp [Sq.spell, hx])) (a.follow g) (n + a.count) hl.2
    have hop : opens (a.tree g).1 = true := by
      cases hcap : a.isCap with
      | true => obtain ⟨x, j, e⟩ := h1.cap hcap; rw [e]; rfl
      | false => obtain ⟨x, e⟩ := h1.cls hcap; rw [e]; rfl
    obtain ⟨ds, h4, m', h5, h6⟩ := hangs_tree (a := a) (s := s) h.1.2 hop h1.cap h1.cls (s.tree (a.tree g).2)
    rw [(atom_reach a h.1.1 g).2] at h4 h6
    have hds : ds = cs := by
      rcases h2 with ⟨e1, e2⟩ | ⟨c, e1, e2⟩ <;> rcases h4 with ⟨e3, e4⟩ | ⟨d, e3, e4⟩ <;> simp_all
    subst hds
    refine ⟨_, .inr ⟨_, rfl, rfl⟩, .inl ⟨m', ds, _, rfl, ?_, h3, by rw [(atom_reach a h.1.1 g).2]; exact h6⟩⟩
    rcases h5 with rfl | h5
    · exact h1.fit
    · exact h1.inner _ h5
theorem alts_fit : ∀ (as : Alts), as.ok = true → as.plainly = true → (∀ x ∈ as.spell, x ∈ allChars) → ∀ g n, as.lined g n = true → as.Row false n (as.trees g)
  | .last hat s, h, hp, hc, g, n, hl => by
    simp only [Alts.ok, Bool.and_eq_true] at h
    simp only [Alts.plainly, Bool.and_eq_true, Bool.not_eq_true'] at hp
    exact ⟨_, rfl, piece_fit hp.1.1.2 (sq_fit s h.1 hp.2 (fun x hx => hc x (by simp [Alts.spell, hx])) g n hl)⟩
  | .more hat s as, h, hp, hc, g, n, hl => by
    simp only [Alts.ok, Bool.and_eq_true] at h
    simp only [Alts.plainly, Bool.and_eq_true, Bool.not_eq_true'] at hp
    simp only [Alts.lined, Bool.and_eq_true] at hl
    exact ⟨_, _, rfl, piece_fit hp.1.1.1.1.1.2 (sq_fit s h.1.1 hp.1.1.1.2 (fun x hx => hc x (by simp [Alts.spell, hx])) g n hl.1),
      alts_fit as h.2 hp.2 (fun x hx => hc x (by simp [Alts.spell, hx])) g _ hl.2⟩
end

theorem tops_fit : ∀ (as : Alts), as.ok = true → as.plainly = true → (∀ x ∈ as.spell, x ∈ allChars) → ∀ g n, as.aligned g n = true → as.Row false n (as.tops g)
  | .last hat s, h, hp, hc, g, n, hl => by
    simp only [Alts.ok, Bool.and_eq_true] at h
    simp only [Alts.plainly, Bool.and_eq_true, Bool.not_eq_true'] at hp
    exact ⟨_, rfl, piece_fit hp.1.1.2 (sq_fit s h.1 hp.2 (fun x hx => hc x (by simp [Alts.spell, hx])) g n hl)⟩
  | .more hat s as, h, hp, hc, g, n, hl => by
    simp only [Alts.ok, Bool.and_eq_true] at h
    simp only [Alts.plainly, Bool.and_eq_true, Bool.not_eq_true'] at hp
    simp only [Alts.aligned, Bool.and_eq_true] at hl
    refine ⟨_, _, rfl, piece_fit hp.1.1.1.1.1.2 (sq_fit s h.1.1 hp.1.1.1.2 (fun x hx => hc x (by simp [Alts.spell, hx])) g n hl.1), ?_⟩
    rw [piece_reach hat s h.1.1 (by simp [hp.1.1.1.1.1.2])]
    exact tops_fit as h.2 hp.2 (fun x hx => hc x (by simp [Alts.spell, hx])) _ _ hl.2

/-- The compiled tree. -/
theorem compile_fit {as : Alts} (h : as.ok = true) (hp : as.plainly = true) (hc : ∀ x ∈ as.spell, x ∈ allChars) (hl : as.aligned 0 0 = true) :
    ∃ t ms, compile as.spell = some t ∧ as.Row false 0 ms ∧ Joined ms t := by
  have h1 := tops_fit as h hp hc 0 0 hl
  obtain ⟨r, hr⟩ := optimize_some as.tree
  obtain ⟨⟨ms, h2, h3⟩, _⟩ := optFix_inv (P := fun t => ∃ ms, as.Row false 0 ms ∧ Joined ms t) (fun t ht => by
    obtain ⟨ms, h2, h3⟩ := ht
    obtain ⟨h4, h5⟩ := row_fit_opt as 0 ms h2
    exact joined_opt h3 h4 h5 (row_ne _ _ _ h2) []) _ _ _ ⟨_, h1, .inl rfl⟩ hr
  exact ⟨r, ms, by simp [compile, build_tree as h, hr], h2, h3⟩

end ERegex

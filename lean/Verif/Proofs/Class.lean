import Verif.Proofs.Syntax
import Verif.Proofs.Leftmost
import Verif.Spec.Prefer
/-!
# Patterns of one character

The tree of a one-character pattern (`a`, `\d`, `.`, `[…]`, `[^…]`) is `single` or `skipping`, before and after the optimizer.
-/
set_option autoImplicit false
namespace ERegex
open ERegex.Spec

/-! ## the optimizer keeps the shape -/

mutual
theorem opt_single : ∀ (t : Node) (inj : List (List Int)), single t = true → single (opt t inj) = true
  | .exact .., _, h => by simpa [opt, single] using h
  | .range .., _, _ => by simp [opt, single]
  | .word, _, _ => by simp [opt, single]
  | .any, _, _ => by simp [opt, single]
  | .simple m [], inj, h => by
    simp only [single, Bool.and_eq_true] at h
    simpa [opt] using opt_single m inj h.1
  | .alt [c], inj, h => by
    simp only [single, singles, Bool.and_eq_true] at h
    simpa [opt] using opt_single c inj h.2.1
  | .alt (c :: d :: cs), _, h => by
    simp only [single, singles, Bool.and_eq_true] at h
    simp only [opt, single, singles, opt_single c [] h.2.1, opt_single d [] h.2.2.1, opts_single cs h.2.2.2]
    simp
  | .alt [], _, h => by simp [single] at h
  | .simple m (c :: cs), _, h => by simp [single] at h
  | .space, _, h => by simp [single] at h
  | .bos, _, h => by simp [single] at h
  | .eol, _, h => by simp [single] at h
  | .negated _, _, h => by simp [single] at h
  | .greedy .., _, h => by simp [single] at h
  | .lazy .., _, h => by simp [single] at h
  | .possessive .., _, h => by simp [single] at h
  | .repeated .., _, h => by simp [single] at h
  | .group .., _, h => by simp [single] at h
theorem opts_single : ∀ (cs : List Node), singles cs = true → singles (opts cs) = true
  | [], _ => by simp [opts, singles]
  | c :: cs, h => by
    simp only [singles, Bool.and_eq_true] at h
    simp [opts, singles, opt_single c [] h.1, opts_single cs h.2]
end

mutual
theorem opt_skipping : ∀ (t : Node) (inj : List (List Int)), skipping t = true → skipping (opt t inj) = true
  | .space, _, h => by simp [opt, skipping]
  | .negated m, _, h => by
    simp only [skipping] at h
    simp [opt, skipping, opt_single m [] h]
  | .simple m [], inj, h => by
    simp only [skipping, Bool.and_eq_true] at h
    simpa [opt] using opt_skipping m inj h.1
  | .alt [c], inj, h => by
    simp only [skipping, skippings] at h
    simpa [opt] using opt_skipping c inj h
  | .alt (c :: d :: cs), _, h => by
    simp only [skipping] at h
    have := opts_skipping (c :: d :: cs) h
    simpa only [opts, opt, skipping] using this
  | .alt [], _, h => by simp [skipping, skippings] at h
  | .simple m (c :: cs), _, h => by simp [skipping] at h
  | .exact .., _, h => by simp [skipping] at h
  | .range .., _, h => by simp [skipping] at h
  | .word, _, h => by simp [skipping] at h
  | .any, _, h => by simp [skipping] at h
  | .bos, _, h => by simp [skipping] at h
  | .eol, _, h => by simp [skipping] at h
  | .greedy .., _, h => by simp [skipping] at h
  | .lazy .., _, h => by simp [skipping] at h
  | .possessive .., _, h => by simp [skipping] at h
  | .repeated .., _, h => by simp [skipping] at h
  | .group .., _, h => by simp [skipping] at h
theorem opts_skipping : ∀ (cs : List Node), skippings cs = true → skippings (opts cs) = true
  | [], h => by simp [skippings] at h
  | [c], h => by
    simp only [skippings] at h
    simp [opts, skippings, opt_skipping c [] h]
  | c :: d :: cs, h => by
    rw [skippings] at h
    simp only [Bool.and_eq_true] at h
    have := opts_skipping (d :: cs) h.2
    simp only [opts] at this ⊢
    rw [skippings]
    simp [opt_single c [] h.1, this]
end

theorem rounds_single : ∀ (k : Nat) (t : Node), single t = true → single (rounds k t) = true
  | 0, _, h => h
  | k + 1, t, h => rounds_single k (opt t []) (opt_single t [] h)

theorem rounds_skipping : ∀ (k : Nat) (t : Node), skipping t = true → skipping (rounds k t) = true
  | 0, _, h => h
  | k + 1, t, h => rounds_skipping k (opt t []) (opt_skipping t [] h)

/-! ## one-character atoms -/

theorem terminalOf_single (c : Int) (h : escB c = true) (hs : c ≠ 115) {t : Node} (ht : terminalOf [92, c] = some t) :
    single t = true := by
  by_cases h1 : c = 97
  · subst h1; cases ht; rfl
  by_cases h2 : c = 114
  · subst h2; cases ht; rfl
  by_cases h3 : c = 101
  · subst h3; cases ht; rfl
  by_cases h4 : c = 102
  · subst h4; cases ht; rfl
  by_cases h5 : c = 110
  · subst h5; cases ht; rfl
  by_cases h6 : c = 116
  · subst h6; cases ht; rfl
  by_cases h7 : c = 100
  · subst h7; cases ht; rfl
  by_cases h9 : c = 119
  · subst h9; cases ht; rfl
  simp [escB] at h
  have : terminalOf [92, c] = some (.exact [c] [92, c]) := by
    unfold terminalOf
    split <;> simp_all
  rw [this] at ht
  cases ht; rfl

/-- The node of an item. -/
def itemNode : Item → Option Node
  | .chr c => some (.simple (.exact [c] [c]) [])
  | .esc c => (terminalOf [92, c]).map (fun t => .simple t [])
  | .rng a b => some (.simple (.range a b [91, a, 45, b, 93]) [])

theorem itemNode_single {i : Item} (hok : i.ok = true) (hs : i.steady = true) {n : Node} (h : itemNode i = some n) : single n = true := by
  cases i with
  | chr c => cases h; rfl
  | rng a b => cases h; rfl
  | esc c =>
    simp only [itemNode, Option.map_eq_some_iff] at h
    obtain ⟨t, ht, rfl⟩ := h
    simp only [Item.steady, bne_iff_ne] at hs
    simp [single, terminalOf_single c hok hs ht]

theorem itemNode_skip {i : Item} (hs : i.steady = false) {n : Node} (h : itemNode i = some n) : skipping n = true := by
  cases i with
  | chr c => simp [Item.steady] at hs
  | rng a b => simp [Item.steady] at hs
  | esc c =>
    simp [Item.steady] at hs
    subst hs
    cases h; rfl

theorem classItems_cons (d : Bool) (it : Item) (items : List Item) (h : (it :: items).all Item.ok = true) (f : Nat) {ns : List Node}
    (e : classItems (f + 1) ((it :: items).flatMap Item.toks ++ dashToks d) = some ns) :
    ∃ n ns', itemNode it = some n ∧ ns = n :: ns' ∧ classItems f (items.flatMap Item.toks ++ dashToks d) = some ns' := by
  simp only [List.all_cons, Bool.and_eq_true] at h
  have hd := items_head items h.2 d
  simp only [List.flatMap_cons, List.append_assoc] at e
  cases it with
  | chr c =>
    change classItems (f + 1) ([c] :: (items.flatMap Item.toks ++ dashToks d)) = _ at e
    rw [classItems_chr hd] at e
    simp only [Option.map_eq_some_iff] at e
    obtain ⟨ns', h1, h2⟩ := e
    exact ⟨_, ns', rfl, h2.symm, h1⟩
  | esc c =>
    obtain ⟨t, ht, hc⟩ := terminalOf_esc c h.1
    change classItems (f + 1) ([92, c] :: (items.flatMap Item.toks ++ dashToks d)) = _ at e
    rw [classItems_esc hd ht] at e
    simp only [Option.map_eq_some_iff] at e
    obtain ⟨ns', h1, h2⟩ := e
    exact ⟨_, ns', by simp [itemNode, ht], h2.symm, h1⟩
  | rng a b =>
    have hr : rangeOk a b = true := by have := h.1; simp [Item.ok] at this; simp [rangeOk]; omega
    change classItems (f + 1) ([a] :: [45] :: [b] :: (items.flatMap Item.toks ++ dashToks d)) = _ at e
    rw [classItems_rng hr] at e
    simp only [Option.map_eq_some_iff] at e
    obtain ⟨ns', h1, h2⟩ := e
    exact ⟨_, ns', rfl, h2.symm, h1⟩

theorem classItems_single (d : Bool) : ∀ (items : List Item) (f : Nat) (ns : List Node), items.all Item.ok = true →
    items.all Item.steady = true → classItems f (items.flatMap Item.toks ++ dashToks d) = some ns → singles ns = true
  | [], f, ns, _, _, e => by
    cases d with
    | false =>
      cases f <;> (simp [dashToks, classItems] at e; subst e; rfl)
    | true =>
      cases f with
      | zero => simp [dashToks, classItems] at e
      | succ f =>
        simp only [List.flatMap_nil, dashToks, List.nil_append, if_true] at e
        rw [classItems_chr (by simp)] at e
        cases f <;> (simp [classItems] at e; subst e; rfl)
  | it :: items, f, ns, h, hs, e => by
    cases f with
    | zero => cases it <;> simp [Item.toks, classItems] at e
    | succ f =>
      obtain ⟨n, ns', h1, rfl, h3⟩ := classItems_cons d it items h f e
      simp only [List.all_cons, Bool.and_eq_true] at h hs
      simp [singles, itemNode_single h.1 hs.1 h1, classItems_single d items f ns' h.2 hs.2 h3]

theorem classItems_skip : ∀ (items : List Item) (f : Nat) (ns : List Node), items.all Item.ok = true →
    items.dropLast.all Item.steady = true → items.any (fun i => !i.steady) = true →
    classItems f (items.flatMap Item.toks ++ dashToks false) = some ns → skippings ns = true
  | [], _, _, _, _, h, _ => by simp at h
  | [it], f, ns, h, _, hs, e => by
    cases f with
    | zero => cases it <;> simp [Item.toks, classItems] at e
    | succ f =>
      obtain ⟨n, ns', h1, rfl, h3⟩ := classItems_cons false it [] h f e
      have : ns' = [] := by cases f <;> (simp [dashToks, classItems] at h3; exact h3)
      subst this
      simp only [List.any_cons, List.any_nil, Bool.or_false, Bool.not_eq_true'] at hs
      simp [skippings, itemNode_skip hs h1]
  | it :: i2 :: items, f, ns, h, hl, hs, e => by
    cases f with
    | zero => cases it <;> simp [Item.toks, classItems] at e
    | succ f =>
      obtain ⟨n, ns', h1, rfl, h3⟩ := classItems_cons false it (i2 :: items) h f e
      simp only [List.all_cons, Bool.and_eq_true] at h
      rw [List.dropLast_cons_of_ne_nil (by simp), List.all_cons, Bool.and_eq_true] at hl
      have hs2 : (i2 :: items).any (fun i => !i.steady) = true := by
        rw [List.any_cons, hl.1] at hs; simpa using hs
      have := classItems_skip (i2 :: items) f ns' (by simp [h.2]) hl.2 hs2 h3
      cases ns' with
      | nil => simp [skippings] at this
      | cons n2 ns2 =>
        rw [skippings]
        simp [itemNode_single h.1 hl.1 h1, this]

/-- The regex made of one atom. -/
def atomAlts (a : Atom) : Alts := .last false (.cons a .once (.nil false))

theorem atomAlts_spell (a : Atom) : (atomAlts a).spell = a.spell := by simp [atomAlts, Alts.spell, Sq.spell, Quant.spell]
theorem atomAlts_toks (a : Atom) : (atomAlts a).toks = a.toks := by simp [atomAlts, Alts.toks, Sq.toks, Quant.toks, hatToks]
theorem atomAlts_ok (a : Atom) (h : a.ok = true) : (atomAlts a).ok = true := by simp [atomAlts, Alts.ok, Sq.ok, Quant.ok, Sq.empty, h]

theorem build_atom {a : Atom} (h : a.ok = true) {n : Node} {b : Bool}
    (hc : ∀ c rest, classify c (a.toks ++ rest) = .node n b rest) : build a.spell = some (.alt [n]) := by
  have h' := atomAlts_ok a h
  have ht : tokenize a.spell = some a.toks := by
    have : Tokens ((atomAlts a).spell) ((atomAlts a).toks) := by simpa using tokens_alts _ h' .nil
    rw [atomAlts_spell, atomAlts_toks] at this
    exact (tokenize_iff _ _).2 this
  have hs : splitT 124 a.toks = [a.toks] := by
    have := splitT_parts (atomAlts a).parts (parts_ne _) (topFree_alts _ h')
    rw [← toks_join, atomAlts_toks] at this
    rw [this]
    simp [atomAlts, Alts.parts, Sq.toks, Quant.toks, hatToks]
  have hH : H none a.toks 0 = some n := by
    have := hc true []
    rw [List.append_nil] at this
    rw [H_node (last := none) this, H_nil]; rfl
  simp only [build, ht, hs, topBranches]
  rw [helper_H (Nat.lt_succ_self _), hH]
  rfl

theorem atom_shape (a : Atom) (h : a.ok = true) (hg : ∀ c as, a ≠ .group c as) : ∃ b, build a.spell = some b ∧
    (a.steady = true → single b = true) ∧ (a.skips = true → skipping b = true) := by
  have fin : ∀ (n : Node) (b : Bool), (∀ c rest, classify c (a.toks ++ rest) = .node (.simple n []) b rest) →
      (a.steady = true → single n = true) → (a.skips = true → skipping n = true) → ∃ b, build a.spell = some b ∧
      (a.steady = true → single b = true) ∧ (a.skips = true → skipping b = true) := by
    intro n b hc h1 h2
    refine ⟨_, build_atom h hc, fun hs => ?_, fun hs => ?_⟩
    · simp [single, singles, h1 hs]
    · simp [skipping, skippings, h2 hs]
  cases a with
  | chr c => exact fin _ _ (fun b rest => classify_plain b c h rest) (fun _ => rfl) (by simp [Atom.skips])
  | esc c =>
    obtain ⟨t, ht, _⟩ := terminalOf_esc c h
    refine fin _ _ (fun b rest => classify_esc b c h rest ht) (fun hs => ?_) (fun hs => ?_)
    · simp only [Atom.steady, bne_iff_ne] at hs
      exact terminalOf_single c h hs ht
    · simp only [Atom.skips, beq_iff_eq] at hs
      subst hs; cases ht; rfl
  | dot => exact fin _ _ (fun b rest => classify_dot b rest) (fun _ => rfl) (by simp [Atom.skips])
  | hex x y =>
    simp only [Atom.ok, Bool.and_eq_true] at h
    exact fin _ _ (fun b rest => classify_hex b x y h.1 h.2 rest) (fun _ => rfl) (by simp [Atom.skips])
  | oct x y z =>
    simp only [Atom.ok, Bool.and_eq_true] at h
    exact fin _ _ (fun b rest => classify_oct b x y z h.1.1 h.1.2 h.2 rest) (fun _ => rfl) (by simp [Atom.skips])
  | group c as => exact absurd rfl (hg c as)
  | cls neg items dash =>
    simp only [Atom.ok, Bool.and_eq_true] at h
    obtain ⟨n, h1, h2⟩ := classNode_ok items dash h.1 h.2
    have hx := fun rest => extract_wellNested .square (wellNested_noBrackets (items_noBracket items dash h.1)) rest
    have hn : (items.all Item.steady = true → single n = true) ∧
        (dash = false → items.dropLast.all Item.steady = true → items.any (fun i => !i.steady) = true → skipping n = true) := by
      unfold classNode at h1
      split at h1
      · simp at h1
      · simp at h1
      · rename_i ns hne hci
        simp only [Option.some.injEq] at h1
        subst h1
        refine ⟨fun hs => ?_, fun hd hl hs => ?_⟩
        · have := classItems_single dash items _ _ h.1 hs hci
          simp only [single, this, Bool.and_true]
          cases ns with
          | nil => exact absurd rfl hne
          | cons => rfl
        · subst hd
          simpa [skipping] using classItems_skip items _ _ h.1 hl hs hci
    cases neg with
    | false =>
      refine fin n true (fun c rest => ?_) (fun hs => ?_) (fun hs => ?_)
      · simp only [Atom.toks, hatToks, List.cons_append]
        rw [classify_class, show (((if false = true then [[94]] else []) ++ (items.flatMap Item.toks ++ dashToks dash) ++ [[93]]) ++ rest) =
          (items.flatMap Item.toks ++ dashToks dash) ++ [93] :: rest by simp, hx]
        · simp only [h1]
        · intro tl e
          cases items with
          | nil => cases dash <;> simp [dashToks] at e
          | cons i items =>
            simp only [List.all_cons, Bool.and_eq_true] at h
            have := h.1.1
            cases i <;> simp [Item.toks, Item.ok, classB] at e this
            · omega
            · omega
      · simp only [Atom.steady, Bool.not_false, Bool.true_and] at hs
        exact hn.1 hs
      · simp only [Atom.skips, Bool.and_eq_true, Bool.not_eq_true'] at hs
        exact hn.2 hs.1.1 hs.1.2 hs.2
    | true =>
      refine fin (.negated n) true (fun c rest => ?_) (fun hs => ?_) (fun hs => ?_)
      · simp only [Atom.toks, hatToks, List.cons_append]
        rw [show ((if True then [[94]] else []) ++ (items.flatMap Item.toks ++ dashToks dash) ++ [[93]]) ++ rest =
          [94] :: ((items.flatMap Item.toks ++ dashToks dash) ++ [93] :: rest) by simp, classify_negclass, hx]
        simp only [h1]
      · simp [Atom.steady] at hs
      · simp only [Atom.skips] at hs
        simp [skipping, hn.1 hs]

/-! ## the conditions of the general theorems -/

theorem singles_mem : ∀ {cs : List Node}, singles cs = true → ∀ {x : Node}, x ∈ cs → single x = true
  | [], _, _, hx => by simp at hx
  | c :: cs, h, x, hx => by
    simp only [singles, Bool.and_eq_true] at h
    rcases List.mem_cons.1 hx with rfl | hx
    · exact h.1
    · exact singles_mem h.2 hx

mutual
theorem single_width : ∀ (t : Node), single t = true → width t = some 1
  | .exact s _, h => by simp only [single, decide_eq_true_eq] at h; simp [width, h]
  | .range .., _ => rfl
  | .word, _ => rfl
  | .any, _ => rfl
  | .simple m cs, h => by
    simp only [single, Bool.and_eq_true, List.isEmpty_iff] at h
    obtain ⟨h1, rfl⟩ := h
    simp [width, widths, single_width m h1]
  | .alt cs, h => by
    simp only [single, Bool.and_eq_true] at h
    have : cs ≠ [] := by intro hc; subst hc; simp at h
    simpa [width] using singles_width cs h.2 this
  | .space, h => by simp [single] at h
  | .bos, h => by simp [single] at h
  | .eol, h => by simp [single] at h
  | .negated _, h => by simp [single] at h
  | .greedy .., h => by simp [single] at h
  | .lazy .., h => by simp [single] at h
  | .possessive .., h => by simp [single] at h
  | .repeated .., h => by simp [single] at h
  | .group .., h => by simp [single] at h
theorem singles_width : ∀ (cs : List Node), singles cs = true → cs ≠ [] → widths cs = some 1
  | [], _, h => absurd rfl h
  | [c], h, _ => by
    simp only [singles, Bool.and_eq_true] at h
    simpa [widths] using single_width c h.1
  | c :: d :: cs, h, _ => by
    rw [singles] at h
    simp only [Bool.and_eq_true] at h
    simp [widths, single_width c h.1, singles_width (d :: cs) h.2 (by simp)]
end

mutual
theorem single_conds (nul e z : Bool) : ∀ (t : Node), single t = true → ∀ ib ff tv f dj,
    safe nul t = true ∧ snd ib z t = true ∧ cm e t ff tv f ib dj = true ∧ clean t = true
  | .exact s _, h, ib, ff, tv, f, dj => by
    simp only [single, decide_eq_true_eq] at h
    refine ⟨by simp [safe, h], rfl, ?_, rfl⟩
    cases s <;> simp [cm] at h ⊢
  | .range .., _, _, _, _, _, _ => by simp [safe, snd, cm, clean]
  | .word, _, _, _, _, _, _ => by simp [safe, snd, cm, clean]
  | .any, _, _, _, _, _, _ => by simp [safe, snd, cm, clean]
  | .simple m cs, h, ib, ff, tv, f, dj => by
    simp only [single, Bool.and_eq_true, List.isEmpty_iff] at h
    obtain ⟨h1, rfl⟩ := h
    obtain ⟨a, b, c, d⟩ := single_conds nul e z m h1 false ff tv f false
    refine ⟨by simp [safe, safes, a], by simp [snd, snds, cleans, b], ?_, by simp [clean, d]⟩
    simp only [cm, cms, Bool.and_eq_true, Bool.not_false, and_true, nullables, Bool.and_true]
    exact (single_conds nul e z m h1 false ff tv _ false).2.2.1
  | .alt cs, h, ib, ff, tv, f, dj => by
    simp only [single, Bool.and_eq_true] at h
    obtain ⟨a, b, c, d⟩ := singles_conds nul e z cs h.2 ib
    refine ⟨by simpa [safe] using a, ?_, ?_, by simpa [clean] using d⟩
    · simp only [snd, b, Bool.true_and]
      exact cleans_dropLast d
    · simp only [cm]
      apply singles_cms nul e z cs h.2
      intro hc; subst hc; simp at h
  | .space, h, _, _, _, _, _ => by simp [single] at h
  | .bos, h, _, _, _, _, _ => by simp [single] at h
  | .eol, h, _, _, _, _, _ => by simp [single] at h
  | .negated _, h, _, _, _, _, _ => by simp [single] at h
  | .greedy .., h, _, _, _, _, _ => by simp [single] at h
  | .lazy .., h, _, _, _, _, _ => by simp [single] at h
  | .possessive .., h, _, _, _, _, _ => by simp [single] at h
  | .repeated .., h, _, _, _, _, _ => by simp [single] at h
  | .group .., h, _, _, _, _, _ => by simp [single] at h
theorem singles_conds (nul e z : Bool) : ∀ (cs : List Node), singles cs = true → ∀ ib,
    safes nul cs = true ∧ snds ib z cs = true ∧ True ∧ cleans cs = true
  | [], _, _ => by simp [safes, snds, cleans]
  | c :: cs, h, ib => by
    simp only [singles, Bool.and_eq_true] at h
    obtain ⟨a, b, _, d⟩ := single_conds nul e z c h.1 ib false true .univ false
    obtain ⟨a', b', _, d'⟩ := singles_conds nul e z cs h.2 ib
    simp [safes, snds, cleans, a, b, d, a', b', d']
theorem singles_cms (nul e z : Bool) : ∀ (cs : List Node), singles cs = true → cs ≠ [] → ∀ ib ff tv f dj,
    cms e cs ff tv f ib dj = true
  | [], _, h, _, _, _, _, _ => absurd rfl h
  | [c], h, _, ib, ff, tv, f, dj => by
    simp only [singles, Bool.and_eq_true] at h
    simpa [cms] using (single_conds nul e z c h.1 ib ff tv f dj).2.2.1
  | c :: d :: cs, h, _, ib, ff, tv, f, dj => by
    rw [singles] at h
    simp only [Bool.and_eq_true] at h
    have h1 := single_conds nul e z c h.1 ib ff tv f dj
    have h2 := singles_cms nul e z (d :: cs) h.2 (by simp) false false tv f false
    have h3 := (single_conds nul e false c h.1 ib ff tv f dj).2.1
    have h4 : apart c f (d :: cs) = true := by
      simp only [apart, List.all_eq_true]
      intro x hx
      simp [single_width c h.1, single_width x (singles_mem h.2 hx)]
    simp [cms, h1.2.2.1, h1.2.2.2, h2, h3, h4]
end

theorem startClean_of_clean : ∀ (t : Node), clean t = true → startClean t = true
  | .exact .., h | .range .., h | .word, h | .any, h | .bos, h | .eol, h | .space, h | .negated _, h => by simpa [startClean] using h
  | .simple m _, h => by
    simp only [clean] at h
    simpa [startClean] using startClean_of_clean m h
  | .alt [], h => by simpa [startClean] using h
  | .alt [c], h => by
    simp only [clean, cleans, Bool.and_true] at h
    simpa [startClean] using startClean_of_clean c h
  | .alt (c :: d :: cs), h => by simpa [startClean] using h
  | .greedy .., h => by simp [startClean, h]
  | .lazy .., h => by simpa [startClean] using h
  | .possessive .., h => by simpa [startClean] using h
  | .repeated .., h => by simpa [startClean] using h
  | .group .., h => by simp [startClean, h]

mutual
theorem skipping_conds (nul z : Bool) : ∀ (t : Node), skipping t = true → ∀ ib, safe nul t = true ∧ snd ib z t = true
  | .space, _, _ => by simp [safe, snd]
  | .negated m, h, _ => by simp only [skipping] at h; simp [safe, snd, h]
  | .simple m cs, h, ib => by
    simp only [skipping, Bool.and_eq_true, List.isEmpty_iff] at h
    obtain ⟨h1, rfl⟩ := h
    obtain ⟨a, b⟩ := skipping_conds nul z m h1 false
    simp [safe, safes, snd, snds, cleans, a, b]
  | .alt cs, h, ib => by
    simp only [skipping] at h
    obtain ⟨a, b, c⟩ := skippings_conds nul z cs h ib
    simp [safe, snd, a, b, c]
  | .exact .., h, _ => by simp [skipping] at h
  | .range .., h, _ => by simp [skipping] at h
  | .word, h, _ => by simp [skipping] at h
  | .any, h, _ => by simp [skipping] at h
  | .bos, h, _ => by simp [skipping] at h
  | .eol, h, _ => by simp [skipping] at h
  | .greedy .., h, _ => by simp [skipping] at h
  | .lazy .., h, _ => by simp [skipping] at h
  | .possessive .., h, _ => by simp [skipping] at h
  | .repeated .., h, _ => by simp [skipping] at h
  | .group .., h, _ => by simp [skipping] at h
theorem skippings_conds (nul z : Bool) : ∀ (cs : List Node), skippings cs = true → ∀ ib,
    safes nul cs = true ∧ snds ib z cs = true ∧ cleans cs.dropLast = true
  | [], h, _ => by simp [skippings] at h
  | [c], h, ib => by
    simp only [skippings] at h
    obtain ⟨a, b⟩ := skipping_conds nul z c h ib
    simp [safes, snds, cleans, a, b]
  | c :: d :: cs, h, ib => by
    rw [skippings] at h
    simp only [Bool.and_eq_true] at h
    obtain ⟨a, b, _, d1⟩ := single_conds nul true z c h.1 ib true true .univ false
    obtain ⟨a', b', c'⟩ := skippings_conds nul z (d :: cs) h.2 ib
    rw [List.dropLast_cons_of_ne_nil (by simp)]
    simp only [safes, snds, cleans, Bool.and_eq_true] at a' b' c' ⊢
    exact ⟨⟨a, a'⟩, ⟨b, b'⟩, d1, c'⟩
end

end ERegex

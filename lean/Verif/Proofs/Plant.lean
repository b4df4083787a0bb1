import Verif.Proofs.Syntax
/-!
# The tree of a pattern, as a function of its abstract syntax

`Alts.tree as` is the tree that the tree builder makes of the spelling of `as` (`build_tree`), for every well-formed pattern.
-/
set_option autoImplicit false
namespace ERegex
open Spec

/-- Node of a class item. -/
def itemTree : Item → Node
  | .chr c => .simple (.exact [c] [c]) []
  | .esc c => .simple ((terminalOf [92, c]).getD .any) []
  | .rng a b => .simple (.range a b [91, a, 45, b, 93]) []

/-- Nodes of a class. -/
def classTrees (items : List Item) (dash : Bool) : List Node :=
  items.map itemTree ++ (if dash then [.simple (.exact [45] [45]) []] else [])

/-- `n` with `c` as its continuation. -/
def graft (n : Node) : Option Node → Node
  | none => n
  | some c => (addChild (some n) c).getD n

/-- The quantified node. -/
def quantTree (n : Node) : Quant → Node
  | .once => n
  | .star m => (polOf m).node n 0 umax
  | .plus m => (polOf m).node n 1 umax
  | .opt m => (polOf m).node n 0 1
  | .exact k _ => .repeated n (decimal k).toNat []
  | .atLeast k m => (polOf m).node n (decimal k).toNat umax
  | .between k l m => (polOf m).node n (decimal k).toNat (decimal l).toNat

mutual
/-- The node of an atom, and the group index behind it. -/
def _root_.ERegex.Spec.Atom.tree : Atom → Nat → Node × Nat
  | .chr c, gi => (.simple (.exact [c] [c]) [], gi)
  | .esc c, gi => (.simple ((terminalOf [92, c]).getD .any) [], gi)
  | .dot, gi => (.simple .any [], gi)
  | .hex a b, gi => (.simple (.exact [hexPair a b] [hexPair a b]) [], gi)
  | .oct a b c, gi => (.simple (.exact [octTriple a b c] [octTriple a b c]) [], gi)
  | .cls false items dash, _ => (.simple (.alt (classTrees items dash)) [], nextIdxs (classTrees items dash))
  | .cls true items dash, _ => (.simple (.negated (.alt (classTrees items dash))) [], nextIdxs (classTrees items dash))
  | .group true as, gi => (.group (.alt (as.trees (gi + 1))) gi [], gi + 1)
  | .group false as, gi => (.simple (.alt (as.trees gi)) [], nextIdxs (as.trees gi))
/-- The tree of a sequence; `none` if it is empty. -/
def _root_.ERegex.Spec.Sq.tree : Sq → Nat → Option Node
  | .nil dollar, _ => if dollar then some (.simple .eol []) else none
  | .cons a q s, gi => some (graft (quantTree (a.tree gi).1 q) (s.tree (a.tree gi).2))
/-- The trees of the alternatives of a group. -/
def _root_.ERegex.Spec.Alts.trees : Alts → Nat → List Node
  | .last hat s, gi => [if hat then graft (.simple .bos []) (s.tree gi) else (s.tree gi).getD default]
  | .more hat s as, gi => (if hat then graft (.simple .bos []) (s.tree gi) else (s.tree gi).getD default) :: as.trees gi
end

/-- The tree of one alternative. -/
def pieceTree (hat : Bool) (s : Sq) (gi : Nat) : Node := if hat then graft (.simple .bos []) (s.tree gi) else (s.tree gi).getD default

/-- The trees of the alternatives of the whole pattern. -/
def _root_.ERegex.Spec.Alts.tops : Alts → Nat → List Node
  | .last hat s, gi => [pieceTree hat s gi]
  | .more hat s as, gi => pieceTree hat s gi :: as.tops (nextIdx (pieceTree hat s gi))

/-- The tree of a pattern. -/
def _root_.ERegex.Spec.Alts.tree (as : Alts) : Node := .alt (as.tops 0)

/-- A child can be appended. -/
def opens : Node → Bool
  | .simple .. | .greedy .. | .lazy .. | .possessive .. | .repeated .. | .group .. => true
  | _ => false

theorem add_graft {n : Node} (h : opens n = true) (c : Node) : addChild (some n) c = some (graft n (some c)) := by
  cases n <;> simp_all [opens, graft, addChild]

theorem opens_quant {n : Node} (h : opens n = true) (q : Quant) : opens (quantTree n q) = true := by
  cases q with
  | once => exact h
  | exact => rfl
  | star m | plus m | opt m | atLeast _ m | between _ _ m => cases m <;> rfl

theorem opens_atom (a : Atom) (gi : Nat) : opens (a.tree gi).1 = true := by
  cases a with
  | cls neg items dash => cases neg <;> simp [Atom.tree, opens]
  | group c as => cases c <;> simp [Atom.tree, opens]
  | _ => simp [Atom.tree, opens]

theorem classItems_list (d : Bool) : ∀ (items : List Item) (f : Nat), items.all Item.ok = true →
    (items.flatMap Item.toks ++ dashToks d).length ≤ f → classItems f (items.flatMap Item.toks ++ dashToks d) = some (classTrees items d) := by
  intro items
  induction items with
  | nil =>
    intro f _ hl
    cases d with
    | false => cases f <;> simp [dashToks, classItems, classTrees]
    | true =>
      cases f with
      | zero => simp [dashToks] at hl
      | succ f =>
        simp only [List.flatMap_nil, dashToks, List.nil_append, if_true]
        rw [classItems_chr (by simp)]
        cases f <;> simp [classItems, classTrees]
  | cons it items ih =>
    intro f h hl
    simp only [List.all_cons, Bool.and_eq_true] at h
    simp only [List.flatMap_cons, List.append_assoc] at hl ⊢
    have hd := items_head items h.2 d
    have e : ∀ n, classTrees (it :: items) d = n → n = itemTree it :: classTrees items d := by rintro _ rfl; simp [classTrees]
    cases f with
    | zero => cases it <;> simp [Item.toks] at hl
    | succ f =>
      have h1 := ih f h.2 (by cases it <;> simp [Item.toks] at hl ⊢ <;> omega)
      rw [show classTrees (it :: items) d = itemTree it :: classTrees items d from rfl]
      cases it with
      | chr c =>
        show classItems (f + 1) ([c] :: (items.flatMap Item.toks ++ dashToks d)) = _
        rw [classItems_chr hd, h1]; rfl
      | esc c =>
        obtain ⟨t, ht, _⟩ := terminalOf_esc c h.1
        show classItems (f + 1) ([92, c] :: (items.flatMap Item.toks ++ dashToks d)) = _
        rw [classItems_esc hd ht, h1]
        simp [itemTree, ht]
      | rng a b =>
        have hr : rangeOk a b = true := by have := h.1; simp [Item.ok] at this; simp [rangeOk]; omega
        show classItems (f + 1) ([a] :: [45] :: [b] :: (items.flatMap Item.toks ++ dashToks d)) = _
        rw [classItems_rng hr, h1]; rfl

theorem classNode_list (items : List Item) (d : Bool) (h : items.all Item.ok = true) (hne : (!items.isEmpty || d) = true) :
    classNode (items.flatMap Item.toks ++ dashToks d) = some (.alt (classTrees items d)) := by
  unfold classNode
  rw [classItems_list d items _ h (Nat.le_refl _)]
  cases items with
  | nil => cases d <;> simp_all [classTrees]
  | cons => simp [classTrees]

/-- `helper` on an atom. -/
def StartsAt (ts : List Tok) (a : Atom) : Prop := ∀ gi rest last,
  H last (ts ++ rest) gi = (H (some (a.tree gi).1) rest (a.tree gi).2).bind (addChild last)

theorem startsAt_node {ts : List Tok} {a : Atom} {b : Bool} (n : Node) (hn : ∀ gi, a.tree gi = (n, if b then nextIdx n else gi))
    (h : ∀ c rest, classify c (ts ++ rest) = .node n b rest) : StartsAt ts a := by
  intro gi rest last
  rw [H_node (h _ rest), hn]

theorem quant_tree (q : Quant) (hq : q.ok = true) {rest : List Tok} (hr : ∀ x tl, rest = x :: tl → x ≠ [63] ∧ x ≠ [43]) (gi : Nat)
    (n : Node) : H (some n) (q.toks ++ rest) gi = H (some (quantTree n q)) rest gi := by
  have comma : NoBracket [44] := noBracket_chr (by decide)
  cases q with
  | once => rfl
  | star m =>
    simp only [Quant.toks, List.cons_append]
    rw [H_quant (classify_star _ _), policyOf_mode m hr]; rfl
  | plus m =>
    simp only [Quant.toks, List.cons_append]
    rw [H_quant (classify_plus _ _), policyOf_mode m hr]; rfl
  | opt m =>
    simp only [Quant.toks, List.cons_append]
    rw [H_quant (classify_opt _ _), policyOf_mode m hr]; rfl
  | exact k m =>
    have hb := boundB_iff hq
    have hp := pack_digits hq
    have h1 := noBracket_digits hb.2.1
    have he := extract_digits (w := [k]) (by simpa using h1) (m.toks ++ rest)
    simp only [Quant.toks, List.cons_append]
    rw [H_quant (q := fun x => quantifiedNode x [k] (polOf m)) (rest := rest)
      (by rw [classify_brace, show k :: [125] :: (m.toks ++ rest) = [k] ++ [125] :: (m.toks ++ rest) from rfl, he]
          simp only [policyOf_mode m hr])]
    simp [quantifiedNode, hp.1, quantTree]
  | atLeast k m =>
    have hb := boundB_iff hq
    have hp := pack_digits hq
    have h1 := noBracket_digits hb.2.1
    have he := extract_digits (w := [k, [44]]) (by simp [h1, comma]) (m.toks ++ rest)
    simp only [Quant.toks, List.cons_append]
    rw [H_quant (q := fun x => quantifiedNode x [k, [44]] (polOf m)) (rest := rest)
      (by rw [classify_brace, show k :: [44] :: [125] :: (m.toks ++ rest) = [k, [44]] ++ [125] :: (m.toks ++ rest) from rfl, he]
          simp only [policyOf_mode m hr])]
    simp [quantifiedNode, hp.1, quantTree]
  | between k l m =>
    simp only [Quant.ok, Bool.and_eq_true] at hq
    have hb := boundB_iff hq.1
    have hp := pack_digits hq.1
    have hl := pack_digits hq.2
    have h1 := noBracket_digits hb.2.1
    have h2 := noBracket_digits (boundB_iff hq.2).2.1
    have he := extract_digits (w := [k, [44], l]) (by simp [h1, h2, comma]) (m.toks ++ rest)
    simp only [Quant.toks, List.cons_append]
    rw [H_quant (q := fun x => quantifiedNode x [k, [44], l] (polOf m)) (rest := rest)
      (by rw [classify_brace, show k :: [44] :: l :: [125] :: (m.toks ++ rest) = [k, [44], l] ++ [125] :: (m.toks ++ rest) from rfl, he]
          simp only [policyOf_mode m hr])]
    simp [quantifiedNode, hp.1, hl.1, quantTree]

mutual
theorem atom_tree : ∀ (a : Atom), a.ok = true → StartsAt a.toks a
  | .chr c, h => startsAt_node (b := false) _ (fun _ => rfl) (fun b rest => classify_plain b c h rest)
  | .esc c, h => by
    obtain ⟨t, ht, hc⟩ := terminalOf_esc c h
    exact startsAt_node (b := false) (.simple t []) (fun _ => by simp [Atom.tree, ht]) (fun b rest => classify_esc b c h rest ht)
  | .dot, h => startsAt_node (b := false) _ (fun _ => rfl) (fun b rest => classify_dot b rest)
  | .hex a b, h => by
    simp only [Atom.ok, Bool.and_eq_true] at h
    exact startsAt_node (b := false) _ (fun _ => rfl) (fun c rest => classify_hex c a b h.1 h.2 rest)
  | .oct a b c, h => by
    simp only [Atom.ok, Bool.and_eq_true] at h
    exact startsAt_node (b := false) _ (fun _ => rfl) (fun d rest => classify_oct d a b c h.1.1 h.1.2 h.2 rest)
  | .cls neg items dash, h => by
    simp only [Atom.ok, Bool.and_eq_true] at h
    have h1 := classNode_list items dash h.1 h.2
    have hx := fun rest => extract_wellNested .square (wellNested_noBrackets (items_noBracket items dash h.1)) rest
    cases neg with
    | false =>
      refine startsAt_node (b := true) (.simple (.alt (classTrees items dash)) []) (fun _ => by simp [Atom.tree, nextIdx, nextIdxs]) (fun c rest => ?_)
      simp only [Atom.toks, hatToks, List.cons_append]
      rw [classify_class, show (((if false = true then [[94]] else []) ++ (items.flatMap Item.toks ++ dashToks dash) ++ [[93]]) ++ rest) =
        (items.flatMap Item.toks ++ dashToks dash) ++ [93] :: rest by simp, hx]
      · simp only [h1]
      · intro tl e
        cases items with
        | nil => cases dash <;> simp [dashToks] at e
        | cons i items =>
          simp only [List.all_cons, Bool.and_eq_true] at h
          have := h.1.1
          cases i <;> simp [Item.toks, Item.ok, classB] at e this
          · omega
          · omega
    | true =>
      refine startsAt_node (b := true) (.simple (.negated (.alt (classTrees items dash))) []) (fun _ => by simp [Atom.tree, nextIdx, nextIdxs]) (fun c rest => ?_)
      simp only [Atom.toks, hatToks, List.cons_append]
      rw [show ((if True then [[94]] else []) ++ (items.flatMap Item.toks ++ dashToks dash) ++ [[93]]) ++ rest =
        [94] :: ((items.flatMap Item.toks ++ dashToks dash) ++ [93] :: rest) by simp, classify_negclass, hx]
      simp only [h1]
  | .group capture as, h => by
    have h0 : as.ok = true := by simpa [Atom.ok] using h
    have ht := topFree_alts as h0
    have hw : WellNested as.toks := by
      rw [toks_join]; exact wellNested_join _ (by simpa using fun a b hab => ht (a, b) hab)
    have hs : splitT 124 as.toks = as.parts.map Prod.fst := by rw [toks_join]; exact splitT_parts _ (parts_ne as) ht
    intro gi rest last
    have hx := extract_wellNested .round hw rest
    cases capture with
    | true =>
      rw [H_capture (c := as.toks) (rest := rest)]
      · rw [hs, alts_tree as h0 (gi + 1)]; rfl
      · simp only [Atom.toks, List.cons_append]
        rw [show ((if True then [] else [[63], [58]]) ++ (as.toks ++ [[41]])) ++ rest = as.toks ++ [41] :: rest by simp,
          classify_capture, hx]
        intro tl e
        cases hh : as.toks with
        | nil => rw [hh] at e; simp at e
        | cons x xs =>
          rw [hh] at e; simp at e
          exact (Alts.head_quant as h0 x xs hh).1 e.1
    | false =>
      rw [H_noncapture (c := as.toks) (rest := rest)]
      · rw [hs, alts_tree as h0 gi]; rfl
      · simp only [Atom.toks, List.cons_append]
        rw [show ((if false = true then [] else [[63], [58]]) ++ (as.toks ++ [[41]])) ++ rest = [63] :: [58] :: (as.toks ++ [41] :: rest) by simp,
          classify_noncapture, hx]
theorem sq_graft : ∀ (s : Sq), s.ok = true → ∀ (n : Node) (gi : Nat), opens n = true →
    H (some n) s.toks gi = some (graft n (s.tree gi))
  | .nil dollar, h, n, gi, hn => by
    cases dollar with
    | false => exact H_nil _ _
    | true => rw [show (Sq.nil true).toks = [[36]] from rfl, H_dollar]; exact add_graft hn _
  | .cons a q s, h, n, gi, hn => by
    simp only [Sq.ok, Bool.and_eq_true] at h
    simp only [Sq.toks, Sq.tree]
    rw [atom_tree a h.1.1 gi, quant_tree q h.1.2 (Sq.head_quant s h.2), sq_graft s h.2 _ _ (opens_quant (opens_atom a gi) q)]
    exact add_graft hn _
theorem sq_plant : ∀ (s : Sq), s.ok = true → s.empty = false → ∀ gi, H none s.toks gi = some ((s.tree gi).getD default)
  | .nil dollar, h, he, gi => by
    cases dollar with
    | false => simp [Sq.empty] at he
    | true => rw [show (Sq.nil true).toks = [[36]] from rfl, H_dollar]; rfl
  | .cons a q s, h, he, gi => by
    simp only [Sq.ok, Bool.and_eq_true] at h
    simp only [Sq.toks, Sq.tree]
    rw [atom_tree a h.1.1 gi, quant_tree q h.1.2 (Sq.head_quant s h.2), sq_graft s h.2 _ _ (opens_quant (opens_atom a gi) q)]
    rfl
theorem piece_tree : ∀ (hat : Bool) (s : Sq), s.ok = true → (hat || !s.empty) = true → ∀ gi,
    H none (hatToks hat ++ s.toks) gi = some (pieceTree hat s gi)
  | true, s, h, _, gi => by
    rw [show hatToks true ++ s.toks = [94] :: s.toks from rfl, H_hat]
    exact sq_graft s h (.simple .bos []) gi rfl
  | false, s, h, he, gi => sq_plant s h (by simpa using he) gi
theorem alts_tree : ∀ (as : Alts), as.ok = true → ∀ gi, buildAll (fun b => H none b gi) (as.parts.map Prod.fst) = some (as.trees gi)
  | .last hat s, h, gi => by
    simp only [Alts.ok, Bool.and_eq_true] at h
    simp only [Alts.parts, List.map_cons, List.map_nil, buildAll, piece_tree hat s h.1 h.2 gi, Option.map_some]
    rfl
  | .more hat s as, h, gi => by
    simp only [Alts.ok, Bool.and_eq_true] at h
    simp only [Alts.parts, List.map_cons, buildAll, piece_tree hat s h.1.1 h.1.2 gi, alts_tree as h.2 gi, Option.map_some]
    rfl
end

theorem tops_tree {f : Nat} : ∀ (as : Alts), as.ok = true → (∀ x ∈ as.parts, x.1.length < f) → ∀ gi,
    topBranches f (as.parts.map Prod.fst) gi = some (as.tops gi)
  | .last hat s, h, hf, gi => by
    simp only [Alts.ok, Bool.and_eq_true] at h
    simp only [Alts.parts, List.map_cons, List.map_nil, topBranches]
    rw [helper_H (ts := hatToks hat ++ s.toks) (hf (_, _) (List.mem_singleton.2 rfl)), piece_tree hat s h.1 h.2 gi]
    rfl
  | .more hat s as, h, hf, gi => by
    simp only [Alts.ok, Bool.and_eq_true] at h
    simp only [Alts.parts, List.map_cons, topBranches]
    rw [helper_H (ts := hatToks hat ++ s.toks) (hf (_, _) (List.mem_cons_self ..)), piece_tree hat s h.1.1 h.1.2 gi]
    simp only [tops_tree as h.2 (fun x hx => hf x (by simp [Alts.parts, hx])), Option.map_some]
    rfl

/-- The tree builder makes this tree of the pattern. -/
theorem build_tree (as : Alts) (h : as.ok = true) : build as.spell = some as.tree := by
  have ht : tokenize as.spell = some as.toks := (tokenize_iff _ _).2 (by simpa using tokens_alts as h .nil)
  have hf := topFree_alts as h
  have hs : splitT 124 as.toks = as.parts.map Prod.fst := by rw [toks_join]; exact splitT_parts _ (parts_ne as) hf
  have := tops_tree (f := as.toks.length + 1) as h (fun x hx => by
    have := length_join_ge (as.parts.map Prod.fst) x.1 (List.mem_map_of_mem hx)
    rw [← toks_join] at this; omega) 0
  simp only [build, ht, hs, this]
  rfl

end ERegex

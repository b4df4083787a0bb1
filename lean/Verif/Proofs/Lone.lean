import Verif.Spec.Lone
import Verif.Proofs.Tame
import Verif.Model.Result
/-!
# Which patterns the heuristics reduce to a terminal
-/
set_option autoImplicit false
namespace ERegex
open ERegex.Spec

/-- A terminal below nothing but sequences without continuation and lists of one alternative. -/
def Node.lone : Node → Bool
  | .exact .. | .range .. | .space | .word | .any | .bos | .eol => true
  | .simple m [] => m.lone
  | .alt [c] => c.lone
  | _ => false

theorem lone_groups (t : Node) (h : t.lone = false) : hasGroups t = true := by
  cases t <;> first | rfl | (simp [Node.lone] at h)

theorem lone_opt : ∀ (t : Node) (inj : List (List Int)), t.lone = true → hasGroups (opt t inj) = false
  | .exact .., _, _ | .range .., _, _ | .space, _, _ | .word, _, _ | .any, _, _ | .bos, _, _ | .eol, _, _ => rfl
  | .simple m [], inj, h => by
    rw [opt]; exact lone_opt m inj (by simpa [Node.lone] using h)
  | .alt [c], inj, h => by
    rw [opt]; exact lone_opt c inj (by simpa [Node.lone] using h)
  | .simple _ (_ :: _), _, h | .alt [], _, h | .alt (_ :: _ :: _), _, h | .negated _, _, h | .greedy .., _, h | .lazy .., _, h
  | .possessive .., _, h | .repeated .., _, h | .group .., _, h => by simp [Node.lone] at h

theorem opt_lone : ∀ (t : Node) (inj : List (List Int)), (opt t inj).lone = t.lone
  | .exact .., _ | .range .., _ | .space, _ | .word, _ | .any, _ | .bos, _ | .eol, _ => rfl
  | .simple m [], inj => by rw [opt, opt_lone m inj, Node.lone]
  | .alt [c], inj => by rw [opt, opt_lone c inj, Node.lone]
  | .simple m (c :: cs), inj => by simp [opt, Node.lone]
  | .alt [], inj => by simp [opt, Node.lone]
  | .alt (c :: d :: cs), inj => by simp [opt, Node.lone]
  | .negated m, inj => by simp [opt, Node.lone]
  | .greedy m lo hi cs, inj => by
    simp only [opt]
    split <;> simp [Node.lone]
  | .lazy m lo hi cs, inj => by
    simp only [opt]
    split <;> simp [Node.lone]
  | .possessive .., inj | .repeated .., inj | .group .., inj => by simp [opt, Node.lone]

theorem rounds_lone : ∀ (k : Nat) (t : Node), (rounds k t).lone = t.lone
  | 0, _ => rfl
  | k + 1, t => by rw [rounds, rounds_lone k, opt_lone]

/-- What the heuristics leave. -/
theorem stable_groups {r : Node} (h : opt r [] = r) : hasGroups r = !r.lone := by
  cases hl : r.lone with
  | false => rw [lone_groups r hl]; rfl
  | true => rw [← h, lone_opt r [] hl]; rfl

theorem lone_graft {n : Node} (h : bare n = true) (o : Option Node) : (graft n o).lone = (n.lone && o.isNone) := by
  cases o with
  | none => simp [graft]
  | some c =>
    cases n <;> simp [bare] at h <;> subst h <;> simp [graft, addChild, Node.lone]

theorem lone_quant (n : Node) (q : Quant) : (quantTree n q).lone = (q.isOnce && n.lone) := by
  cases q with
  | once => simp [quantTree, Quant.isOnce]
  | exact => rfl
  | star m | plus m | opt m | atLeast _ m | between _ _ m => cases m <;> rfl

theorem lone_esc {c : Int} (h : escB c = true) : ((terminalOf [92, c]).getD .any).lone = true := by
  obtain ⟨t, ht, h1⟩ := esc_terminal c h
  rw [ht]
  rcases h1 with ⟨rfl, _⟩ | ⟨rfl | ⟨s, rfl⟩ | ⟨x, s, rfl⟩, _⟩ <;> rfl

theorem lone_item {i : Item} (h : i.ok = true) : (itemTree i).lone = true := by
  cases i with
  | chr c => rfl
  | esc c => simp only [itemTree, Node.lone]; exact lone_esc h
  | rng a b => rfl

theorem lone_class {items : List Item} (h : items.all Item.ok = true) (dash : Bool) :
    (Node.alt (classTrees items dash)).lone = decide (items.length + (if dash then 1 else 0) = 1) := by
  cases items with
  | nil => cases dash <;> simp [classTrees, Node.lone]
  | cons i items =>
    simp only [List.all_cons, Bool.and_eq_true] at h
    cases items with
    | nil => cases dash <;> simp [classTrees, Node.lone, lone_item h.1]
    | cons j items => cases dash <;> simp [classTrees, Node.lone]

theorem sq_isNone (s : Sq) (gi : Nat) : (s.tree gi).isNone = s.empty := by
  cases s with
  | nil d => cases d <;> rfl
  | cons => rfl

mutual
theorem atom_lone : ∀ (a : Atom), a.ok = true → ∀ gi, (a.tree gi).1.lone = a.lone
  | .chr c, _, _ | .dot, _, _ | .hex .., _, _ | .oct .., _, _ => rfl
  | .esc c, h, _ => by simp only [Atom.tree, Node.lone, Atom.lone]; exact lone_esc h
  | .cls neg items dash, h, _ => by
    simp only [Atom.ok, Bool.and_eq_true] at h
    cases neg with
    | false => simp only [Atom.tree, Atom.lone, Node.lone.eq_8, lone_class h.1 dash, Bool.not_false, Bool.true_and]
    | true => simp [Atom.tree, Atom.lone, Node.lone]
  | .group capture as, h, gi => by
    have h0 : as.ok = true := by simpa [Atom.ok] using h
    cases capture with
    | false => simp only [Atom.tree, Atom.lone, Node.lone.eq_8, Bool.not_false, Bool.true_and]; exact trees_lone as h0 gi
    | true => simp [Atom.tree, Atom.lone, Node.lone]
theorem sq_lone : ∀ (s : Sq), s.ok = true → s.empty = false → ∀ gi d, ((s.tree gi).getD d).lone = s.lone
  | .nil dollar, _, he, _, _ => by
    cases dollar with
    | false => simp [Sq.empty] at he
    | true => rfl
  | .cons a q s, h, _, gi, d => by
    simp only [Sq.ok, Bool.and_eq_true] at h
    simp only [Sq.tree, Option.getD_some]
    rw [lone_graft (bare_quant (bare_atom a gi) q), lone_quant, sq_isNone]
    rw [atom_lone a h.1.1 gi, Sq.lone, Bool.and_assoc, Bool.and_assoc, Bool.and_comm a.lone]
theorem piece_lone : ∀ (hat : Bool) (s : Sq), s.ok = true → (hat || !s.empty) = true → ∀ gi, (pieceTree hat s gi).lone = (Alts.last hat s).lone
  | true, s, h, _, gi => by
    simp only [pieceTree, if_true]
    rw [lone_graft rfl, sq_isNone]
    simp [Alts.lone, Node.lone]
  | false, s, h, he, gi => by
    simp only [Bool.false_or, Bool.not_eq_true'] at he
    simp only [pieceTree, Bool.false_eq_true, if_false, Alts.lone, if_false]
    exact sq_lone s h he gi default
theorem trees_lone : ∀ (as : Alts), as.ok = true → ∀ gi, (Node.alt (as.trees gi)).lone = as.lone
  | .last hat s, h, gi => by
    simp only [Alts.ok, Bool.and_eq_true] at h
    have := piece_lone hat s h.1 h.2 gi
    unfold pieceTree at this
    simp only [Alts.trees, Node.lone, this]
  | .more hat s (.last ..), h, gi => by simp [Alts.trees, Node.lone, Alts.lone]
  | .more hat s (.more ..), h, gi => by simp [Alts.trees, Node.lone, Alts.lone]
end

theorem tree_lone {as : Alts} (h : as.ok = true) : as.tree.lone = as.lone := by
  cases as with
  | last hat s =>
    simp only [Alts.ok, Bool.and_eq_true] at h
    simp only [Alts.tree, Alts.tops, Node.lone, piece_lone hat s h.1 h.2]
  | more hat s as => cases as <;> simp [Alts.tree, Alts.tops, Node.lone, Alts.lone]

end ERegex

import Verif.Proofs.Shift
import Verif.Proofs.Tame
import Verif.Spec.Hatless
/-!
# The tree of a pattern without `^` has no `^`
-/
set_option autoImplicit false
namespace ERegex
open ERegex.Spec

mutual
theorem unbound_opt : ∀ (t : Node) (inj : List (List Int)), t.unbound = true → (opt t inj).unbound = true
  | .exact .., _, h => h
  | .range .., _, _ | .space, _, _ | .word, _, _ | .any, _, _ | .eol, _, _ => rfl
  | .bos, _, h => h
  | .negated m, _, h => by
    simp only [opt, Node.unbound] at h ⊢
    exact unbound_opt m [] h
  | .simple m [], inj, h => by
    simp only [Node.unbound, Bool.and_eq_true] at h
    rw [opt]; exact unbound_opt m inj h.1
  | .simple m (c :: cs), inj, h => by
    simp only [Node.unbound, unbounds, Bool.and_eq_true] at h
    simp only [opt, Node.unbound, unbounds, Bool.and_eq_true]
    exact ⟨unbound_opt m inj h.1, unbound_opt c [] h.2.1, unbounds_opts cs h.2.2⟩
  | .alt [], _, _ => rfl
  | .alt [c], inj, h => by
    simp only [Node.unbound, unbounds, Bool.and_eq_true] at h
    rw [opt]; exact unbound_opt c inj h.1
  | .alt (c :: e :: cs), inj, h => by
    simp only [Node.unbound, unbounds, Bool.and_eq_true] at h
    simp only [opt, Node.unbound, unbounds, Bool.and_eq_true]
    exact ⟨unbound_opt c [] h.1, unbound_opt e [] h.2.1, unbounds_opts cs h.2.2⟩
  | .greedy m lo hi cs, inj, h => by
    simp only [Node.unbound, Bool.and_eq_true] at h
    simp only [opt]
    split <;> simp only [Node.unbound, Bool.and_eq_true] <;> exact ⟨unbound_opt m [] h.1, unbounds_opts cs h.2⟩
  | .lazy m lo hi cs, inj, h => by
    simp only [Node.unbound, Bool.and_eq_true] at h
    simp only [opt]
    split <;> simp only [Node.unbound, Bool.and_eq_true] <;> exact ⟨unbound_opt m [] h.1, unbounds_opts cs h.2⟩
  | .possessive m lo hi cs, inj, h => by
    simp only [Node.unbound, opt, Bool.and_eq_true] at h ⊢
    exact ⟨unbound_opt m [] h.1, unbounds_opts cs h.2⟩
  | .repeated m n cs, inj, h => by
    simp only [Node.unbound, opt, Bool.and_eq_true] at h ⊢
    exact ⟨unbound_opt m [] h.1, unbounds_opts cs h.2⟩
  | .group m idx cs, inj, h => by
    simp only [Node.unbound, opt, Bool.and_eq_true] at h ⊢
    exact ⟨unbound_opt m _ h.1, unbounds_opts cs h.2⟩
theorem unbounds_opts : ∀ (cs : List Node), unbounds cs = true → unbounds (opts cs) = true
  | [], _ => rfl
  | c :: cs, h => by
    simp only [unbounds, opts, Bool.and_eq_true] at h ⊢
    exact ⟨unbound_opt c [] h.1, unbounds_opts cs h.2⟩
end

theorem unbound_rounds : ∀ (k : Nat) (t : Node), t.unbound = true → (rounds k t).unbound = true
  | 0, _, h => h
  | k + 1, t, h => unbound_rounds k (opt t []) (unbound_opt t [] h)

theorem unbounds_append : ∀ (l r : List Node), unbounds l = true → unbounds r = true → unbounds (l ++ r) = true
  | [], _, _, h => h
  | c :: l, r, h1, h2 => by
    simp only [unbounds, List.cons_append, Bool.and_eq_true] at h1 ⊢
    exact ⟨h1.1, unbounds_append l r h1.2 h2⟩

theorem unbound_graft {n : Node} {o : Option Node} (h1 : n.unbound = true) (h2 : ∀ c, o = some c → c.unbound = true) :
    (graft n o).unbound = true := by
  cases o with
  | none => exact h1
  | some c =>
    have hc : unbounds [c] = true := by simp [unbounds, h2 c rfl]
    cases n <;> simp only [graft, addChild, Option.getD_some, Option.getD_none] <;> try exact h1
    all_goals simp only [Node.unbound, Bool.and_eq_true] at h1 ⊢
    all_goals first
      | exact ⟨h1.1, unbounds_append _ _ h1.2 hc⟩
      | exact unbounds_append _ _ h1 hc

theorem unbounds_all : ∀ (l : List Node), (∀ n ∈ l, n.unbound = true) → unbounds l = true
  | [], _ => rfl
  | c :: l, h => by
    simp only [unbounds, Bool.and_eq_true]
    exact ⟨h c (by simp), unbounds_all l (fun n hn => h n (by simp [hn]))⟩

theorem unbound_esc {c : Int} (h : escB c = true) : ((terminalOf [92, c]).getD .any).unbound = true := by
  obtain ⟨t, ht, h1⟩ := esc_terminal c h
  rw [ht]
  rcases h1 with ⟨rfl, _⟩ | ⟨rfl | ⟨s, rfl⟩ | ⟨x, s, rfl⟩, _⟩ <;> rfl

theorem unbound_item {i : Item} (h : i.ok = true) : (itemTree i).unbound = true := by
  cases i with
  | chr c => rfl
  | esc c => simp only [itemTree, Node.unbound, unbounds, Bool.and_true]; exact unbound_esc h
  | rng a b => rfl

theorem class_unbound {items : List Item} (h : items.all Item.ok = true) (dash : Bool) : unbounds (classTrees items dash) = true := by
  refine unbounds_all _ fun n hn => ?_
  simp only [classTrees, List.mem_append, List.mem_map] at hn
  rcases hn with ⟨i, hi, rfl⟩ | hn
  · exact unbound_item (List.all_eq_true.1 h i hi)
  · cases dash with
    | false => simp at hn
    | true =>
      simp at hn
      subst hn
      rfl

theorem unbound_quant {n : Node} (h : n.unbound = true) (q : Quant) : (quantTree n q).unbound = true := by
  cases q with
  | once => exact h
  | exact k m => simp [quantTree, Node.unbound, unbounds, h]
  | star m | plus m | opt m | atLeast k m | between k l m =>
    cases m <;> simp only [quantTree, polOf, Policy.node, Node.unbound, unbounds, h, Bool.and_self]

mutual
theorem atom_unbound : ∀ (a : Atom), a.ok = true → a.hatless = true → ∀ gi, (a.tree gi).1.unbound = true
  | .chr c, _, _, _ => rfl
  | .esc c, h, _, _ => by simp only [Atom.tree, Node.unbound, unbounds, Bool.and_true]; exact unbound_esc h
  | .dot, _, _, _ => rfl
  | .hex a b, _, _, _ => rfl
  | .oct a b c, _, _, _ => rfl
  | .cls neg items dash, h, _, _ => by
    simp only [Atom.ok, Bool.and_eq_true] at h
    cases neg <;> simp only [Atom.tree, Node.unbound, unbounds, Bool.and_true] <;> exact class_unbound h.1 dash
  | .group capture as, h, ht, gi => by
    have h0 : as.ok = true := by simpa [Atom.ok] using h
    have h1 : as.hatless = true := by simpa [Atom.hatless] using ht
    cases capture <;> simp only [Atom.tree, Node.unbound, unbounds, Bool.and_true] <;> exact trees_unbound as h0 h1 _
theorem sq_unbound : ∀ (s : Sq), s.ok = true → s.hatless = true → ∀ gi c, s.tree gi = some c → c.unbound = true
  | .nil dollar, _, ht, _, c, e => by
    cases dollar with
    | false => simp [Sq.tree] at e
    | true =>
      simp [Sq.tree] at e
      subst e
      rfl
  | .cons a q s, h, ht, gi, c, e => by
    simp only [Sq.ok, Bool.and_eq_true] at h
    simp only [Sq.hatless, Bool.and_eq_true] at ht
    simp only [Sq.tree, Option.some.injEq] at e
    subst e
    exact unbound_graft (unbound_quant (atom_unbound a h.1.1 ht.1 gi) q) (fun c hc => sq_unbound s h.2 ht.2 _ c hc)
theorem piece_unbound : ∀ (hat : Bool) (s : Sq), s.ok = true → (hat || !s.empty) = true → (!hat && s.hatless) = true → ∀ gi,
    (pieceTree hat s gi).unbound = true
  | true, s, _, _, ht, _ => by simp at ht
  | false, s, h, he, ht, gi => by
    simp at ht
    cases hs : s.tree gi with
    | none => cases s with
      | nil d => cases d <;> simp [Sq.tree, Sq.empty] at hs he
      | cons => simp [Sq.tree] at hs
    | some n => simpa [pieceTree, hs] using sq_unbound s h ht gi n hs
theorem trees_unbound : ∀ (as : Alts), as.ok = true → as.hatless = true → ∀ gi, unbounds (as.trees gi) = true
  | .last hat s, h, ht, gi => by
    simp only [Alts.ok, Bool.and_eq_true] at h
    have := piece_unbound hat s h.1 h.2 (by simpa only [Alts.hatless] using ht) gi
    unfold pieceTree at this
    simp only [Alts.trees, unbounds, this, Bool.and_true]
  | .more hat s as, h, ht, gi => by
    simp only [Alts.ok, Bool.and_eq_true] at h
    rw [Alts.hatless, Bool.and_eq_true] at ht
    have := piece_unbound hat s h.1.1 h.1.2 ht.1 gi
    unfold pieceTree at this
    simp only [Alts.trees, unbounds, this, Bool.true_and]
    exact trees_unbound as h.2 ht.2 gi
end

theorem tops_unbound : ∀ (as : Alts), as.ok = true → as.hatless = true → ∀ gi, unbounds (as.tops gi) = true
  | .last hat s, h, ht, gi => by
    simp only [Alts.ok, Bool.and_eq_true] at h
    simp only [Alts.tops, unbounds, piece_unbound hat s h.1 h.2 (by simpa only [Alts.hatless] using ht) gi, Bool.and_true]
  | .more hat s as, h, ht, gi => by
    simp only [Alts.ok, Bool.and_eq_true] at h
    rw [Alts.hatless, Bool.and_eq_true] at ht
    simp only [Alts.tops, unbounds, piece_unbound hat s h.1.1 h.1.2 ht.1 gi, Bool.true_and]
    exact tops_unbound as h.2 ht.2 _

theorem tree_unbound {as : Alts} (h : as.ok = true) (ht : as.hatless = true) : as.tree.unbound = true :=
  tops_unbound as h ht 0

/-! ## the search -/

/-- An outcome moved by `d`. -/
def Outcome.shift (d : Int) : Outcome → Outcome
  | .ok st => .ok (st.shift d)
  | .ub => .ub
  | .timeout => .timeout

theorem nextLoop_sh {d : Int} {a b : Ctx} (H : a.Moved b d) {m m' : K} (hm : KSh d m m') : ∀ (fuel : Nat) (st : St),
    nextLoop b m' fuel (st.shift d) = (nextLoop a m fuel st).shift d
  | 0, st => by
    have := H.qend
    have hs := shift_start (d := d) st
    simp only [nextLoop]
    by_cases h1 : st.start < a.qend
    · rw [if_pos h1, if_pos (by omega)]; rfl
    · rw [if_neg h1, if_neg (by omega)]; rfl
  | f + 1, st => by
    have := H.qend
    have hs := shift_start (d := d) st
    simp only [nextLoop]
    by_cases h1 : st.start < a.qend
    · rw [if_pos h1, if_pos (by omega), hm st]
      cases m st with
      | none => rfl
      | some st' =>
        simp only [Option.map_some, ite_acc]
        split
        · rfl
        · rw [← nextLoop_sh H hm f]
          congr 1
          simp [St.shift, Int.add_right_comm]
    · rw [if_neg h1, if_neg (by omega)]; rfl

theorem shift_blank (d : Int) (n : Nat) : (List.replicate n (none : View)).map (shiftView d) = List.replicate n none := by
  simp [shiftView]

theorem next_sh {d : Int} {a b : Ctx} (H : a.Moved b d) {t : Node} (hu : t.unbound = true) (fuel : Nat) (st : St) :
    next b t fuel (st.shift d) = (next a t fuel st).shift d := by
  simp only [next]
  rw [← nextLoop_sh H (run_sh H t hu [] [] .nil) fuel]
  congr 1
  simp only [St.shift, shift_blank]

/-- Advancing depends on nothing but the place where the result ends. -/
theorem next_congr {cx : Ctx} {t : Node} {fuel : Nat} {st st' : St} (h1 : st.pos = st'.pos) (h2 : st.accepted = st'.accepted) :
    next cx t fuel st = next cx t fuel st' := by
  simp only [next, h1, h2]

end ERegex

import Verif.Spec.Numbering
import Verif.Proofs.Written
/-!
# Numbers of groups
-/
set_option autoImplicit false
namespace ERegex
open Spec

theorem nextIdx_esc {c : Int} (h : escB c = true) : nextIdx ((terminalOf [92, c]).getD .any) = 0 := by
  obtain ⟨t, ht, h1⟩ := esc_terminal c h
  rw [ht]
  rcases h1 with ⟨rfl, h1⟩ | ⟨rfl | ⟨s, rfl⟩ | ⟨x, s, rfl⟩, _⟩ <;> rfl

theorem nextIdxs_zero : ∀ (l : List Node), (∀ n ∈ l, nextIdx n = 0) → nextIdxs l = 0
  | [], _ => rfl
  | c :: l, h => by simp [nextIdxs, h c (by simp), nextIdxs_zero l (fun n hn => h n (by simp [hn]))]

theorem nextIdx_class {items : List Item} (h : items.all Item.ok = true) (dash : Bool) : nextIdxs (classTrees items dash) = 0 := by
  refine nextIdxs_zero _ fun n hn => ?_
  simp only [classTrees, List.mem_append, List.mem_map] at hn
  rcases hn with ⟨i, hi, rfl⟩ | hn
  · have := List.all_eq_true.1 h i hi
    cases i with
    | chr c => rfl
    | rng a b => rfl
    | esc c => simp [itemTree, nextIdx, nextIdxs, nextIdx_esc this]
  · cases dash with
    | false => simp at hn
    | true => simp at hn; subst hn; rfl

theorem reach_loop {n : Node} {q : Quant} (hq : q.isOnce = false) (o : Option Node) : nextIdx (graft (quantTree n q) o) = max (nextIdx n) (o.elim 0 nextIdx) := by
  cases q with
  | once => simp [Quant.isOnce] at hq
  | exact k m => cases o <;> simp [quantTree, graft, addChild, nextIdx, nextIdxs]
  | star m | plus m | opt m | atLeast k m | between k l m =>
    cases m <;> cases o <;> simp [quantTree, graft, addChild, polOf, Policy.node, nextIdx, nextIdxs]

mutual
theorem atom_reach : ∀ (a : Atom), a.ok = true → ∀ gi, nextIdx (a.tree gi).1 = a.reach gi ∧ (a.tree gi).2 = a.follow gi
  | .chr c, _, gi => by simp [Atom.tree, Atom.reach, Atom.follow, nextIdx, nextIdxs]
  | .dot, _, gi => by simp [Atom.tree, Atom.reach, Atom.follow, nextIdx, nextIdxs]
  | .hex .., _, gi | .oct .., _, gi => by simp [Atom.tree, Atom.reach, Atom.follow, nextIdx, nextIdxs]
  | .esc c, h, gi => by simp [Atom.tree, Atom.reach, Atom.follow, nextIdx, nextIdxs, nextIdx_esc h]
  | .cls neg items dash, h, gi => by
    simp only [Atom.ok, Bool.and_eq_true] at h
    cases neg <;> simp [Atom.tree, Atom.reach, Atom.follow, nextIdx, nextIdxs, nextIdx_class h.1]
  | .group true as, h, gi => by simp [Atom.tree, Atom.reach, Atom.follow, nextIdx]
  | .group false as, h, gi => by
    have := trees_reach as (by simpa [Atom.ok] using h) gi
    simp [Atom.tree, Atom.reach, Atom.follow, nextIdx, nextIdxs, this]
theorem sq_reach : ∀ (s : Sq), s.ok = true → ∀ gi, (s.tree gi).elim 0 nextIdx = s.reach gi
  | .nil d, _, gi => by cases d <;> simp [Sq.tree, Sq.reach, nextIdx, nextIdxs]
  | .cons a q s, h, gi => by
    simp only [Sq.ok, Bool.and_eq_true] at h
    have h1 := atom_reach a h.1.1 gi
    have h2 := sq_reach s h.2 (a.tree gi).2
    rw [h1.2] at h2
    simp only [Sq.tree, Option.elim_some, Sq.reach]
    by_cases hq : q.isOnce = true
    · have e : q = .once := by cases q <;> simp_all [Quant.isOnce]
      subst e
      simp only [quantTree, Quant.isOnce, Bool.and_true]
      rcases atom_form a gi with ⟨hc, m, hm⟩ | ⟨hc, m, hm⟩
      · rw [hm] at h1 ⊢
        simp only [nextIdx, nextIdxs] at h1
        rw [hc, h1.2]
        cases hs : s.tree (a.follow gi) with
        | none => rw [hs] at h2; simp [graft, nextIdx, nextIdxs, ← h2, ← h1.1]
        | some c => rw [hs] at h2; simp [graft, addChild, nextIdx, nextIdxs, ← h2, ← h1.1]
      · rw [hm, hc]
        cases s.tree (a.tree gi).2 <;> simp [graft, addChild, nextIdx]
    · rw [reach_loop (by simpa using hq), h1.2, h1.1, h2]
      simp [hq]
theorem piece_reach : ∀ (hat : Bool) (s : Sq), s.ok = true → (hat || !s.empty) = true → ∀ gi, nextIdx (pieceTree hat s gi) = s.reach gi
  | true, s, h, _, gi => by
    have := sq_reach s h gi
    simp only [pieceTree, if_true]
    cases hs : s.tree gi with
    | none => rw [hs] at this; simp [graft, nextIdx, nextIdxs, ← this]
    | some c => rw [hs] at this; simp [graft, addChild, nextIdx, nextIdxs, ← this]
  | false, s, h, he, gi => by
    obtain ⟨c, hc⟩ := tree_some s gi (by simpa using he)
    have := sq_reach s h gi
    rw [hc] at this
    simpa [pieceTree, hc] using this
theorem trees_reach : ∀ (as : Alts), as.ok = true → ∀ gi, nextIdxs (as.trees gi) = as.reach gi
  | .last hat s, h, gi => by
    simp only [Alts.ok, Bool.and_eq_true] at h
    have := piece_reach hat s h.1 h.2 gi
    unfold pieceTree at this
    simp [Alts.trees, nextIdxs, Alts.reach, this]
  | .more hat s as, h, gi => by
    simp only [Alts.ok, Bool.and_eq_true] at h
    have := piece_reach hat s h.1.1 h.1.2 gi
    unfold pieceTree at this
    simp [Alts.trees, nextIdxs, Alts.reach, this, trees_reach as h.2 gi]
end

/-- The groups of the tree are those of the list, in the same order and with the same numbers. -/
inductive Lists : List (Nat × Node) → List (Nat × Alts) → Prop
  | nil : Lists [] []
  | cons {n : Nat} {t : Node} {g : Alts} {cs : List (Nat × Node)} {gs : List (Nat × Alts)} :
    Same (toRx t) g.sem → Lists cs gs → Lists ((n, t) :: cs) ((n, g) :: gs)

theorem Lists.app {cs ds : List (Nat × Node)} {gs hs : List (Nat × Alts)} (h1 : Lists cs gs) (h2 : Lists ds hs) : Lists (cs ++ ds) (gs ++ hs) := by
  induction h1 with
  | nil => exact h2
  | cons h _ ih => exact .cons h ih

theorem Lists.mem {cs : List (Nat × Node)} {gs : List (Nat × Alts)} (h : Lists cs gs) {x : Nat × Node} (hx : x ∈ cs) :
    ∃ g, (x.1, g) ∈ gs ∧ Same (toRx x.2) g.sem := by
  induction h with
  | nil => cases hx
  | @cons n t g cs gs hs _ ih =>
    rcases List.mem_cons.1 hx with rfl | hx
    · exact ⟨g, by simp, hs⟩
    · obtain ⟨g', h1, h2⟩ := ih hx
      exact ⟨g', by simp [h1], h2⟩

theorem Lists.fst {cs : List (Nat × Node)} {gs : List (Nat × Alts)} (h : Lists cs gs) : cs.map Prod.fst = gs.map Prod.fst := by
  induction h with
  | nil => rfl
  | cons _ _ ih => simp [ih]

mutual
theorem atom_lists : ∀ (a : Atom), a.ok = true → ∀ gi, Lists (capsOf (a.tree gi).1) (a.numbered gi)
  | .chr c, _, gi => by simp only [Atom.tree]; exact .nil
  | .dot, _, gi => by simp only [Atom.tree]; exact .nil
  | .hex .., _, gi | .oct .., _, gi => by simp only [Atom.tree]; exact .nil
  | .esc c, h, gi => by simp [Atom.tree, capsOf, capsOfs, caps_esc h, Atom.numbered]; exact .nil
  | .cls neg items dash, h, gi => by
    simp only [Atom.ok, Bool.and_eq_true] at h
    cases neg <;> simp [Atom.tree, capsOf, capsOfs, caps_class h.1, Atom.numbered] <;> exact .nil
  | .group true as, h, gi => by
    have h0 : as.ok = true := by simpa [Atom.ok] using h
    simp only [Atom.tree, capsOf, capsOfs, List.append_nil, Atom.numbered]
    exact .cons (trees_same as h0 _) (trees_lists as h0 (gi + 1))
  | .group false as, h, gi => by
    have h0 : as.ok = true := by simpa [Atom.ok] using h
    simp only [Atom.tree, capsOf, capsOfs, List.append_nil, Atom.numbered]
    exact trees_lists as h0 gi
theorem sq_lists : ∀ (s : Sq), s.ok = true → ∀ gi, Lists ((s.tree gi).elim [] capsOf) (s.numbered gi)
  | .nil d, _, gi => by cases d <;> exact .nil
  | .cons a q s, h, gi => by
    simp only [Sq.ok, Bool.and_eq_true] at h
    simp only [Sq.tree, Option.elim_some, Sq.numbered]
    rw [caps_graft (bare_quant (bare_atom a gi) q), caps_quant, (atom_reach a h.1.1 gi).2]
    exact (atom_lists a h.1.1 gi).app (sq_lists s h.2 _)
theorem piece_lists : ∀ (hat : Bool) (s : Sq), s.ok = true → (hat || !s.empty) = true → ∀ gi, Lists (capsOf (pieceTree hat s gi)) (s.numbered gi)
  | true, s, h, _, gi => by
    simp only [pieceTree, if_true]
    rw [caps_graft rfl]
    exact Lists.nil.app (sq_lists s h gi)
  | false, s, h, he, gi => by
    obtain ⟨c, hc⟩ := tree_some s gi (by simpa using he)
    have := sq_lists s h gi
    rw [hc] at this
    simpa [pieceTree, hc] using this
theorem trees_lists : ∀ (as : Alts), as.ok = true → ∀ gi, Lists (capsOfs (as.trees gi)) (as.numbered gi)
  | .last hat s, h, gi => by
    simp only [Alts.ok, Bool.and_eq_true] at h
    have := piece_lists hat s h.1 h.2 gi
    unfold pieceTree at this
    simpa [Alts.trees, capsOfs, Alts.numbered] using this
  | .more hat s as, h, gi => by
    simp only [Alts.ok, Bool.and_eq_true] at h
    have := piece_lists hat s h.1.1 h.1.2 gi
    unfold pieceTree at this
    simp only [Alts.trees, capsOfs, Alts.numbered]
    exact this.app (trees_lists as h.2 gi)
end

theorem tops_lists : ∀ (as : Alts), as.ok = true → ∀ gi, Lists (capsOfs (as.tops gi)) (as.numberedFrom gi)
  | .last hat s, h, gi => by
    simp only [Alts.ok, Bool.and_eq_true] at h
    simpa [Alts.tops, capsOfs, Alts.numberedFrom] using piece_lists hat s h.1 h.2 gi
  | .more hat s as, h, gi => by
    simp only [Alts.ok, Bool.and_eq_true] at h
    simp only [Alts.tops, capsOfs, Alts.numberedFrom]
    rw [piece_reach hat s h.1.1 h.1.2 gi]
    exact (piece_lists hat s h.1.1 h.1.2 gi).app (tops_lists as h.2 _)

theorem tree_lists (as : Alts) (h : as.ok = true) : Lists (capsOf as.tree) as.captures := by
  have := tops_lists as h 0
  unfold Alts.captures; simpa [Alts.tree, capsOf] using this

/-! ## the contents are those of the groups, in order -/

mutual
theorem atom_contents : ∀ (a : Atom) (n : Nat), (a.numbered n).map Prod.snd = a.groups
  | .chr _, _ | .esc _, _ | .dot, _ | .hex .., _ | .oct .., _ | .cls .., _ => rfl
  | .group true as, n => by simp [Atom.numbered, Atom.groups, alts_contents as]
  | .group false as, n => by simp [Atom.numbered, Atom.groups, alts_contents as]
theorem sq_contents : ∀ (s : Sq) (n : Nat), (s.numbered n).map Prod.snd = s.groups
  | .nil _, _ => rfl
  | .cons a k s, n => by simp [Sq.numbered, Sq.groups, atom_contents a, sq_contents s]
theorem alts_contents : ∀ (as : Alts) (n : Nat), (as.numbered n).map Prod.snd = as.groups
  | .last _ s, n => by simp [Alts.numbered, Alts.groups, sq_contents s]
  | .more _ s as, n => by simp [Alts.numbered, Alts.groups, sq_contents s, alts_contents as]
end

theorem from_contents : ∀ (as : Alts) (n : Nat), (as.numberedFrom n).map Prod.snd = as.groups
  | .last _ s, n => by simp [Alts.numberedFrom, Alts.groups, sq_contents s]
  | .more _ s as, n => by simp [Alts.numberedFrom, Alts.groups, sq_contents s, from_contents as]

theorem captures_contents (as : Alts) : as.captures.map Prod.snd = as.groups := from_contents as 0

/-! ## the slots that the tree writes are those numbers -/

theorem slots_graft {n : Node} (h : bare n = true) (o : Option Node) : slots (graft n o) = slots n ++ o.elim [] slots := by
  cases o with
  | none => simp [graft]
  | some c => cases n <;> simp [bare] at h <;> subst h <;> simp [graft, addChild, slots, slotss]

theorem slots_quant (n : Node) (q : Quant) : slots (quantTree n q) = slots n := by
  cases q with
  | once => rfl
  | exact k m => simp [quantTree, slots, slotss]
  | star m | plus m | opt m | atLeast k m | between k l m => cases m <;> simp [quantTree, polOf, Policy.node, slots, slotss]

theorem slots_esc {c : Int} (h : escB c = true) : slots ((terminalOf [92, c]).getD .any) = [] := by
  obtain ⟨t, ht, h1⟩ := esc_terminal c h
  rw [ht]
  rcases h1 with ⟨rfl, h1⟩ | ⟨rfl | ⟨s, rfl⟩ | ⟨x, s, rfl⟩, _⟩ <;> rfl

theorem slots_tiny : ∀ (l : List Node), (∀ n ∈ l, slots n = []) → slotss l = []
  | [], _ => rfl
  | c :: l, h => by simp [slotss, h c (by simp), slots_tiny l (fun n hn => h n (by simp [hn]))]

theorem slots_class {items : List Item} (h : items.all Item.ok = true) (dash : Bool) : slotss (classTrees items dash) = [] := by
  refine slots_tiny _ fun n hn => ?_
  simp only [classTrees, List.mem_append, List.mem_map] at hn
  rcases hn with ⟨i, hi, rfl⟩ | hn
  · have := List.all_eq_true.1 h i hi
    cases i with
    | chr c => rfl
    | rng a b => rfl
    | esc c => simp [itemTree, slots, slotss, slots_esc this]
  · cases dash with
    | false => simp at hn
    | true => simp at hn; subst hn; rfl

mutual
theorem atom_numbers : ∀ (a : Atom), a.ok = true → ∀ gi, slots (a.tree gi).1 = (a.numbered gi).map Prod.fst
  | .chr c, _, gi => by simp [Atom.tree, slots, slotss, Atom.numbered]
  | .dot, _, gi => by simp [Atom.tree, slots, slotss, Atom.numbered]
  | .hex .., _, gi | .oct .., _, gi => by simp [Atom.tree, slots, slotss, Atom.numbered]
  | .esc c, h, gi => by simp [Atom.tree, slots, slotss, slots_esc h, Atom.numbered]
  | .cls neg items dash, h, gi => by
    simp only [Atom.ok, Bool.and_eq_true] at h
    cases neg <;> simp [Atom.tree, slots, slotss, slots_class h.1, Atom.numbered]
  | .group true as, h, gi => by
    have h0 : as.ok = true := by simpa [Atom.ok] using h
    simp [Atom.tree, slots, slotss, Atom.numbered, trees_numbers as h0 (gi + 1)]
  | .group false as, h, gi => by
    have h0 : as.ok = true := by simpa [Atom.ok] using h
    simp [Atom.tree, slots, slotss, Atom.numbered, trees_numbers as h0 gi]
theorem sq_numbers : ∀ (s : Sq), s.ok = true → ∀ gi, (s.tree gi).elim [] slots = (s.numbered gi).map Prod.fst
  | .nil d, _, gi => by cases d <;> rfl
  | .cons a q s, h, gi => by
    simp only [Sq.ok, Bool.and_eq_true] at h
    simp only [Sq.tree, Option.elim_some, Sq.numbered]
    rw [slots_graft (bare_quant (bare_atom a gi) q), slots_quant, (atom_reach a h.1.1 gi).2, atom_numbers a h.1.1 gi, sq_numbers s h.2 _]
    simp
theorem piece_numbers : ∀ (hat : Bool) (s : Sq), s.ok = true → (hat || !s.empty) = true → ∀ gi, slots (pieceTree hat s gi) = (s.numbered gi).map Prod.fst
  | true, s, h, _, gi => by
    simp only [pieceTree, if_true]
    rw [slots_graft rfl, sq_numbers s h gi]
    simp [slots, slotss]
  | false, s, h, he, gi => by
    obtain ⟨c, hc⟩ := tree_some s gi (by simpa using he)
    have := sq_numbers s h gi
    rw [hc] at this
    simpa [pieceTree, hc] using this
theorem trees_numbers : ∀ (as : Alts), as.ok = true → ∀ gi, slotss (as.trees gi) = (as.numbered gi).map Prod.fst
  | .last hat s, h, gi => by
    simp only [Alts.ok, Bool.and_eq_true] at h
    have := piece_numbers hat s h.1 h.2 gi
    unfold pieceTree at this
    simpa [Alts.trees, slotss, Alts.numbered] using this
  | .more hat s as, h, gi => by
    simp only [Alts.ok, Bool.and_eq_true] at h
    have := piece_numbers hat s h.1.1 h.1.2 gi
    unfold pieceTree at this
    simp only [Alts.trees, slotss, Alts.numbered, this, trees_numbers as h.2 gi, List.map_append]
end

theorem tops_numbers : ∀ (as : Alts), as.ok = true → ∀ gi, slotss (as.tops gi) = (as.numberedFrom gi).map Prod.fst
  | .last hat s, h, gi => by
    simp only [Alts.ok, Bool.and_eq_true] at h
    simpa [Alts.tops, slotss, Alts.numberedFrom] using piece_numbers hat s h.1 h.2 gi
  | .more hat s as, h, gi => by
    simp only [Alts.ok, Bool.and_eq_true] at h
    simp only [Alts.tops, slotss, Alts.numberedFrom]
    rw [piece_reach hat s h.1.1 h.1.2 gi, piece_numbers hat s h.1.1 h.1.2 gi, tops_numbers as h.2 _]
    simp

theorem tree_numbers (as : Alts) (h : as.ok = true) : slots as.tree = as.captures.map Prod.fst := by
  have := tops_numbers as h 0
  unfold Alts.captures; simpa [Alts.tree, slots] using this

end ERegex

import Verif.Proofs.Sure
import Verif.Proofs.Decide
/-!
# Groups and shortest texts of a pattern as written
-/
set_option autoImplicit false
namespace ERegex
open Spec

/-! ## shortest texts -/

theorem iter_shortest {R : Nat → Nat → Prop} {d : Nat} (h : ∀ a b, R a b → a + d ≤ b) : ∀ (n i j : Nat), Iter R n i j → i + d * n ≤ j
  | 0, i, j, e => by simp only [Iter] at e; omega
  | n + 1, i, j, ⟨k, h1, h2⟩ => by
    have := h _ _ h1
    have := iter_shortest h n k j h2
    have : d * (n + 1) = d * n + d := Nat.mul_succ d n
    omega

theorem rep_shortest {q : List Int} {r : Rx} {d : Nat} (h : ∀ a b, Den q r a b → a + d ≤ b) {lo : Nat} {hi : Option Nat} {i j : Nat}
    (hd : Den q (.rep r lo hi) i j) : i + d * lo ≤ j := by
  obtain ⟨n, h1, _, h2⟩ := hd
  have := iter_shortest h n i j h2
  have := Nat.mul_le_mul_left d h1
  omega

theorem quant_shortest {q : List Int} {r : Rx} {d : Nat} (h : ∀ a b, Den q r a b → a + d ≤ b) {k : Quant} {i j : Nat}
    (hd : Den q (k.sem r) i j) : i + d * k.lo ≤ j := by
  cases k with
  | once => simpa [Quant.lo] using h i j hd
  | star m | plus m | opt m | exact n m | atLeast n m | between n l m => exact rep_shortest h hd

mutual
theorem atom_shortest {q : List Int} : ∀ (a : Atom) (i j : Nat), Den q a.sem i j → i + a.shortest ≤ j
  | .chr c, i, j, h | .esc c, i, j, h => by simp only [Atom.sem, Den] at h; simp only [Atom.shortest]; omega
  | .dot, i, j, h => by simp only [Atom.sem, Den] at h; simp only [Atom.shortest]; omega
  | .hex a b, i, j, h => by simp only [Atom.sem, Den] at h; simp only [Atom.shortest]; omega
  | .oct a b c, i, j, h => by simp only [Atom.sem, Den] at h; simp only [Atom.shortest]; omega
  | .cls neg items dash, i, j, h => by simp only [Atom.sem, Den] at h; simp only [Atom.shortest]; omega
  | .group c as, i, j, h => by simp only [Atom.shortest]; exact alts_shortest as i j (by simpa [Atom.sem] using h)
theorem sq_shortest {q : List Int} : ∀ (s : Sq) (i j : Nat), Den q s.sem i j → i + s.shortest ≤ j
  | .nil d, i, j, h => by
    have := (den_le q _ i j h).1
    simp only [Sq.shortest]; omega
  | .cons a k s, i, j, h => by
    simp only [Sq.sem, Den] at h
    obtain ⟨m, h1, h2⟩ := h
    have := quant_shortest (fun x y hxy => atom_shortest a x y hxy) h1
    have := sq_shortest s m j h2
    simp only [Sq.shortest]; omega
theorem hat_shortest {q : List Int} : ∀ (hat : Bool) (s : Sq) (i j : Nat), Den q (if hat then .seq .bos s.sem else s.sem) i j → i + s.shortest ≤ j
  | true, s, i, j, h => by
    simp only [if_true, Den] at h
    obtain ⟨m, h1, h2⟩ := h
    have := sq_shortest s m j h2
    omega
  | false, s, i, j, h => sq_shortest s i j (by simpa using h)
theorem alts_shortest {q : List Int} : ∀ (as : Alts) (i j : Nat), Den q as.sem i j → i + as.shortest ≤ j
  | .last hat s, i, j, h => hat_shortest hat s i j h
  | .more hat s as, i, j, h => by
    simp only [Alts.sem, Den] at h
    simp only [Alts.shortest]
    rcases h with h | h
    · have := hat_shortest hat s i j h; omega
    · have := alts_shortest as i j h; omega
end

/-! ## groups -/

theorem trees_same (as : Alts) (h : as.ok = true) (gi : Nat) : Same (toRx (.alt (as.trees gi))) as.sem := by
  obtain ⟨ns, h1, h2⟩ := buildAll_parts gi as.parts (alts_ok as h)
  rw [alts_tree as h gi] at h1
  cases h1
  rw [sem_parts]; exact same_alt_parts (parts_ne as) h2

/-- Every group in the tree is one of the list. -/
def Among (cs : List (Nat × Node)) (gs : List Alts) : Prop := ∀ x ∈ cs, ∃ g ∈ gs, Same (toRx x.2) g.sem

theorem Among.app {cs ds : List (Nat × Node)} {gs hs : List Alts} (h1 : Among cs gs) (h2 : Among ds hs) : Among (cs ++ ds) (gs ++ hs) := by
  intro x hx
  rcases List.mem_append.1 hx with hx | hx
  · obtain ⟨g, hg, e⟩ := h1 x hx; exact ⟨g, List.mem_append_left _ hg, e⟩
  · obtain ⟨g, hg, e⟩ := h2 x hx; exact ⟨g, List.mem_append_right _ hg, e⟩

theorem among_nil (gs : List Alts) : Among [] gs := by intro x hx; cases hx

theorem capsOfs_append : ∀ (l r : List Node), capsOfs (l ++ r) = capsOfs l ++ capsOfs r
  | [], _ => rfl
  | c :: l, r => by simp [capsOfs, capsOfs_append l r]

theorem caps_graft {n : Node} (h : bare n = true) (o : Option Node) : capsOf (graft n o) = capsOf n ++ o.elim [] capsOf := by
  cases o with
  | none => simp [graft]
  | some c => cases n <;> simp [bare] at h <;> subst h <;> simp [graft, addChild, capsOf, capsOfs]

theorem caps_quant (n : Node) (q : Quant) : capsOf (quantTree n q) = capsOf n := by
  cases q with
  | once => rfl
  | exact k m => simp [quantTree, capsOf, capsOfs]
  | star m | plus m | opt m | atLeast k m | between k l m => cases m <;> simp [quantTree, polOf, Policy.node, capsOf, capsOfs]

theorem caps_tiny : ∀ (l : List Node), (∀ n ∈ l, capsOf n = []) → capsOfs l = []
  | [], _ => rfl
  | c :: l, h => by simp [capsOfs, h c (by simp), caps_tiny l (fun n hn => h n (by simp [hn]))]

theorem caps_esc {c : Int} (h : escB c = true) : capsOf ((terminalOf [92, c]).getD .any) = [] := by
  obtain ⟨t, ht, h1⟩ := esc_terminal c h
  rw [ht]
  rcases h1 with ⟨rfl, h1⟩ | ⟨rfl | ⟨s, rfl⟩ | ⟨x, s, rfl⟩, _⟩ <;> rfl

theorem caps_class {items : List Item} (h : items.all Item.ok = true) (dash : Bool) : capsOfs (classTrees items dash) = [] := by
  refine caps_tiny _ fun n hn => ?_
  simp only [classTrees, List.mem_append, List.mem_map] at hn
  rcases hn with ⟨i, hi, rfl⟩ | hn
  · have := List.all_eq_true.1 h i hi
    cases i with
    | chr c => rfl
    | rng a b => rfl
    | esc c => simp [itemTree, capsOf, capsOfs, caps_esc this]
  · cases dash with
    | false => simp at hn
    | true => simp at hn; subst hn; rfl

mutual
theorem atom_groups : ∀ (a : Atom), a.ok = true → ∀ gi, Among (capsOf (a.tree gi).1) a.groups
  | .chr c, _, gi => by simp only [Atom.tree]; exact among_nil _
  | .dot, _, gi => by simp only [Atom.tree]; exact among_nil _
  | .hex .., _, gi | .oct .., _, gi => by simp only [Atom.tree]; exact among_nil _
  | .esc c, h, gi => by simp [Atom.tree, capsOf, capsOfs, caps_esc h]; exact among_nil _
  | .cls neg items dash, h, gi => by
    simp only [Atom.ok, Bool.and_eq_true] at h
    cases neg <;> simp [Atom.tree, capsOf, capsOfs, caps_class h.1] <;> exact among_nil _
  | .group true as, h, gi => by
    have h0 : as.ok = true := by simpa [Atom.ok] using h
    have ih := trees_groups as h0 (gi + 1)
    simp only [Atom.tree, capsOf, capsOfs, List.append_nil, Atom.groups]
    intro x hx
    rcases List.mem_cons.1 hx with rfl | hx
    · exact ⟨as, by simp, trees_same as h0 _⟩
    · obtain ⟨g, hg, e⟩ := ih x hx
      exact ⟨g, by simp [hg], e⟩
  | .group false as, h, gi => by
    have h0 : as.ok = true := by simpa [Atom.ok] using h
    simp only [Atom.tree, capsOf, capsOfs, List.append_nil, Atom.groups]
    exact trees_groups as h0 gi
theorem sq_groups : ∀ (s : Sq), s.ok = true → ∀ gi, Among ((s.tree gi).elim [] capsOf) s.groups
  | .nil d, _, gi => by cases d <;> exact among_nil _
  | .cons a q s, h, gi => by
    simp only [Sq.ok, Bool.and_eq_true] at h
    simp only [Sq.tree, Option.elim_some, Sq.groups]
    rw [caps_graft (bare_quant (bare_atom a gi) q), caps_quant]
    exact (atom_groups a h.1.1 gi).app (sq_groups s h.2 _)
theorem piece_groups : ∀ (hat : Bool) (s : Sq), s.ok = true → (hat || !s.empty) = true → ∀ gi, Among (capsOf (pieceTree hat s gi)) s.groups
  | true, s, h, _, gi => by
    simp only [pieceTree, if_true]
    rw [caps_graft rfl]
    exact (among_nil []).app (sq_groups s h gi)
  | false, s, h, he, gi => by
    obtain ⟨c, hc⟩ := tree_some s gi (by simpa using he)
    have := sq_groups s h gi
    rw [hc] at this
    simpa [pieceTree, hc] using this
theorem trees_groups : ∀ (as : Alts), as.ok = true → ∀ gi, Among (capsOfs (as.trees gi)) as.groups
  | .last hat s, h, gi => by
    simp only [Alts.ok, Bool.and_eq_true] at h
    have := piece_groups hat s h.1 h.2 gi
    unfold pieceTree at this
    simpa [Alts.trees, capsOfs, Alts.groups] using this
  | .more hat s as, h, gi => by
    simp only [Alts.ok, Bool.and_eq_true] at h
    have := piece_groups hat s h.1.1 h.1.2 gi
    unfold pieceTree at this
    simp only [Alts.trees, capsOfs, Alts.groups]
    exact this.app (trees_groups as h.2 gi)
end

theorem tops_groups : ∀ (as : Alts), as.ok = true → ∀ gi, Among (capsOfs (as.tops gi)) as.groups
  | .last hat s, h, gi => by
    simp only [Alts.ok, Bool.and_eq_true] at h
    simpa [Alts.tops, capsOfs, Alts.groups] using piece_groups hat s h.1 h.2 gi
  | .more hat s as, h, gi => by
    simp only [Alts.ok, Bool.and_eq_true] at h
    simp only [Alts.tops, capsOfs, Alts.groups]
    exact (piece_groups hat s h.1.1 h.1.2 gi).app (tops_groups as h.2 _)

end ERegex

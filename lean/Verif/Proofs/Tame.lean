import Verif.Spec.Tame
import Verif.Proofs.Plant
import Verif.Proofs.Class
import Verif.Proofs.Forward
/-!
# From conditions on the pattern as written to conditions on the compiled tree
-/
set_option autoImplicit false
namespace ERegex
open Spec

mutual
/-- The condition on trees. -/
def tame (dollar space : Bool) (w : Nat) : Node → Bool
  | .exact s _ => decide (s.length ≤ 1)
  | .range .. | .space | .word | .any | .bos => true
  | .eol => dollar
  | .negated m => tame dollar space w m && (space || single m)
  | .simple m cs | .lazy m _ _ cs | .possessive m _ _ cs | .repeated m _ cs | .group m _ cs => tame dollar space w m && tames dollar space w cs
  | .alt cs => tames dollar space w cs
  | .greedy m lo hi cs =>
    tame dollar space w m && tames dollar space w cs && (!(lo == 0 && hi == 1) || decide (minSize m ≤ w))
def tames (dollar space : Bool) (w : Nat) : List Node → Bool
  | [] => true
  | c :: cs => tame dollar space w c && tames dollar space w cs
end

mutual
theorem tame_safe (nul : Bool) : ∀ (t : Node), tame nul false 1 t = true → safe nul t = true
  | .exact .., h => by simp [tame, safe] at h ⊢; exact Or.inl h
  | .range .., _ | .space, _ | .word, _ | .any, _ | .bos, _ => rfl
  | .eol, h => by simpa [tame, safe] using h
  | .negated m, h => by simp only [tame, Bool.and_eq_true, Bool.false_or] at h; exact h.2
  | .simple m cs, h | .lazy m _ _ cs, h | .possessive m _ _ cs, h | .repeated m _ cs, h | .group m _ cs, h => by
    simp only [tame, safe, Bool.and_eq_true] at h ⊢
    exact ⟨tame_safe nul m h.1, tames_safe nul cs h.2⟩
  | .alt cs, h => by simp only [tame, safe] at h ⊢; exact tames_safe nul cs h
  | .greedy m lo hi cs, h => by
    simp only [tame, safe, Bool.and_eq_true] at h ⊢
    refine ⟨⟨tame_safe nul m h.1.1, tames_safe nul cs h.1.2⟩, ?_⟩
    rcases Bool.or_eq_true_iff.1 h.2 with h2 | h2
    · have : (lo == 0 && hi == 1) = false := by cases hx : (lo == 0 && hi == 1) <;> simp_all
      rw [this]; rfl
    · rw [h2]; simp
theorem tames_safe (nul : Bool) : ∀ (cs : List Node), tames nul false 1 cs = true → safes nul cs = true
  | [], _ => rfl
  | c :: cs, h => by
    simp only [tames, safes, Bool.and_eq_true] at h ⊢
    exact ⟨tame_safe nul c h.1, tames_safe nul cs h.2⟩
end

mutual
theorem tame_forward {d sp : Bool} : ∀ (t : Node), tame d sp 0 t = true → forward t = true
  | .exact .., _ | .range .., _ | .space, _ | .word, _ | .any, _ | .bos, _ | .eol, _ => rfl
  | .negated m, h => by simp only [tame, Bool.and_eq_true] at h; exact tame_forward m h.1
  | .simple m cs, h | .lazy m _ _ cs, h | .possessive m _ _ cs, h | .repeated m _ cs, h | .group m _ cs, h => by
    simp only [tame, forward, Bool.and_eq_true] at h ⊢
    exact ⟨tame_forward m h.1, tames_forward cs h.2⟩
  | .alt cs, h => by simp only [tame, forward] at h ⊢; exact tames_forward cs h
  | .greedy m lo hi cs, h => by
    simp only [tame, forward, Bool.and_eq_true] at h ⊢
    refine ⟨⟨tame_forward m h.1.1, tames_forward cs h.1.2⟩, ?_⟩
    rcases Bool.or_eq_true_iff.1 h.2 with h2 | h2
    · have : (lo == 0 && hi == 1) = false := by cases hx : (lo == 0 && hi == 1) <;> simp_all
      rw [this]; rfl
    · simp at h2; simp [h2]
theorem tames_forward {d sp : Bool} : ∀ (cs : List Node), tames d sp 0 cs = true → forwards cs = true
  | [], _ => rfl
  | c :: cs, h => by
    simp only [tames, forwards, Bool.and_eq_true] at h ⊢
    exact ⟨tame_forward c h.1, tames_forward cs h.2⟩
end

mutual
theorem tame_opt {d sp : Bool} {w : Nat} : ∀ (t : Node) (inj : List (List Int)), tame d sp w t = true → tame d sp w (opt t inj) = true
  | .exact .., _, h => h
  | .range .., _, _ | .space, _, _ | .word, _, _ | .any, _, _ | .bos, _, _ => rfl
  | .eol, _, h => h
  | .negated m, _, h => by
    simp only [opt, tame, Bool.and_eq_true] at h ⊢
    refine ⟨tame_opt m [] h.1, ?_⟩
    rcases Bool.or_eq_true_iff.1 h.2 with h2 | h2
    · rw [h2]; rfl
    · rw [opt_single m [] h2]; simp
  | .simple m [], inj, h => by
    simp only [tame, Bool.and_eq_true] at h
    rw [opt]; exact tame_opt m inj h.1
  | .simple m (c :: cs), inj, h => by
    simp only [tame, tames, Bool.and_eq_true] at h
    simp only [opt, tame, tames, Bool.and_eq_true]
    exact ⟨tame_opt m inj h.1, tame_opt c [] h.2.1, tames_opts cs h.2.2⟩
  | .alt [], _, _ => rfl
  | .alt [c], inj, h => by
    simp only [tame, tames, Bool.and_eq_true] at h
    rw [opt]; exact tame_opt c inj h.1
  | .alt (c :: e :: cs), inj, h => by
    simp only [tame, tames, Bool.and_eq_true] at h
    simp only [opt, tame, tames, Bool.and_eq_true]
    exact ⟨tame_opt c [] h.1, tame_opt e [] h.2.1, tames_opts cs h.2.2⟩
  | .greedy m lo hi cs, inj, h => by
    simp only [tame, Bool.and_eq_true] at h
    simp only [opt]
    split <;> simp only [tame, Bool.and_eq_true]
    · exact ⟨tame_opt m [] h.1.1, tames_opts cs h.1.2⟩
    · exact ⟨⟨tame_opt m [] h.1.1, tames_opts cs h.1.2⟩, by rw [minSize_opt]; exact h.2⟩
  | .lazy m lo hi cs, inj, h => by
    simp only [tame, Bool.and_eq_true] at h
    simp only [opt]
    split <;> simp only [tame, Bool.and_eq_true] <;> exact ⟨tame_opt m [] h.1, tames_opts cs h.2⟩
  | .possessive m lo hi cs, inj, h => by
    simp only [tame, opt, Bool.and_eq_true] at h ⊢
    exact ⟨tame_opt m [] h.1, tames_opts cs h.2⟩
  | .repeated m n cs, inj, h => by
    simp only [tame, opt, Bool.and_eq_true] at h ⊢
    exact ⟨tame_opt m [] h.1, tames_opts cs h.2⟩
  | .group m idx cs, inj, h => by
    simp only [tame, opt, Bool.and_eq_true] at h ⊢
    exact ⟨tame_opt m _ h.1, tames_opts cs h.2⟩
theorem tames_opts {d sp : Bool} {w : Nat} : ∀ (cs : List Node), tames d sp w cs = true → tames d sp w (opts cs) = true
  | [], _ => rfl
  | c :: cs, h => by
    simp only [tames, opts, Bool.and_eq_true] at h ⊢
    exact ⟨tame_opt c [] h.1, tames_opts cs h.2⟩
end

theorem tame_rounds {d sp : Bool} {w : Nat} : ∀ (k : Nat) (t : Node), tame d sp w t = true → tame d sp w (rounds k t) = true
  | 0, _, h => h
  | k + 1, t, h => tame_rounds k (opt t []) (tame_opt t [] h)

/-! ## the tree of a pattern -/

theorem tames_append {d sp : Bool} {w : Nat} : ∀ (l r : List Node), tames d sp w l = true → tames d sp w r = true → tames d sp w (l ++ r) = true
  | [], _, _, h => h
  | c :: l, r, h1, h2 => by
    simp only [tames, List.cons_append, Bool.and_eq_true] at h1 ⊢
    exact ⟨h1.1, tames_append l r h1.2 h2⟩

theorem tame_graft {d sp : Bool} {w : Nat} {n : Node} {o : Option Node} (h1 : tame d sp w n = true) (h2 : ∀ c, o = some c → tame d sp w c = true) :
    tame d sp w (graft n o) = true := by
  cases o with
  | none => exact h1
  | some c =>
    have hc : tames d sp w [c] = true := by simp [tames, h2 c rfl]
    cases n <;> simp only [graft, addChild, Option.getD_some, Option.getD_none] <;> try exact h1
    all_goals simp only [tame, Bool.and_eq_true] at h1 ⊢
    all_goals first
      | exact ⟨h1.1, tames_append _ _ h1.2 hc⟩
      | exact ⟨⟨h1.1.1, tames_append _ _ h1.1.2 hc⟩, h1.2⟩
      | exact tames_append _ _ h1 hc

theorem wrap_nat_le (n : Nat) : wrap32 (n : Int) ≤ n := by unfold wrap32; omega

theorem listMin_append (l : List Nat) (x : Nat) : listMin (l ++ [x]) ≤ x := by
  induction l with
  | nil => exact Nat.le_refl _
  | cons y l ih =>
    cases l with
    | nil => simp [listMin]; omega
    | cons z l => simp only [List.cons_append, listMin] at ih ⊢; omega

theorem minSizes_append (l r : List Node) : minSizes (l ++ r) = minSizes l ++ minSizes r := by
  induction l with
  | nil => rfl
  | cons c l ih => simp [minSizes, ih]

theorem listMin_add (l : List Nat) (x : Nat) : listMin (l ++ [x]) ≤ listMin l + x := by
  have := listMin_append l x; omega

/-- A node without children. -/
def bare : Node → Bool
  | .simple _ cs | .greedy _ _ _ cs | .lazy _ _ _ cs | .possessive _ _ _ cs | .repeated _ _ cs | .group _ _ cs => cs.isEmpty
  | _ => false

theorem wrap_add (a b : Nat) : wrap32 (((wrap32 (a : Int) : Nat) : Int) + (b : Int)) ≤ wrap32 ((wrap32 (a : Int) : Nat) + ((0 : Nat) : Int)) + b := by
  unfold wrap32; omega

theorem min_graft {n : Node} (h : bare n = true) (o : Option Node) : minSize (graft n o) ≤ minSize n + (o.elim 0 minSize) := by
  cases o with
  | none => exact Nat.le_refl _
  | some c =>
    cases n <;> simp [bare] at h <;> subst h <;>
      simp only [graft, addChild, Option.getD_some, List.nil_append, minSize, minSizes, listMin, Option.elim] <;>
      (try unfold wrap32) <;> omega

theorem bare_atom (a : Atom) (gi : Nat) : bare (a.tree gi).1 = true := by
  cases a with
  | cls neg items dash => cases neg <;> simp [Atom.tree, bare]
  | group c as => cases c <;> simp [Atom.tree, bare]
  | _ => simp [Atom.tree, bare]

theorem bare_quant {n : Node} (h : bare n = true) (q : Quant) : bare (quantTree n q) = true := by
  cases q with
  | once => exact h
  | exact => rfl
  | star m | plus m | opt m | atLeast _ m | between _ _ m => cases m <;> rfl

theorem min_quant (n : Node) (q : Quant) : minSize (quantTree n q) ≤ minSize n * q.lo := by
  have hw : ∀ a b : Nat, wrap32 (((wrap32 ((a : Int) * (b : Int)) : Nat) : Int) + ((0 : Nat) : Int)) ≤ a * b := by
    intro a b
    rw [← Int.natCast_mul]
    unfold wrap32; omega
  have h1 : ∀ a b : Nat, wrap32 ((a : Int) * (b : Int)) ≤ a * b := by
    intro a b
    rw [← Int.natCast_mul]; exact wrap_nat_le _
  cases q with
  | once => simp [quantTree, Quant.lo]
  | exact k m => simp only [quantTree, Quant.lo, minSize]; exact h1 _ _
  | star m | plus m | opt m | atLeast _ m | between _ _ m =>
    cases m <;> simp only [quantTree, Quant.lo, minSize, polOf, Policy.node, minSizes, listMin] <;> exact hw _ _

theorem esc_terminal (c : Int) (h : escB c = true) : ∃ t, terminalOf [92, c] = some t ∧
    (t = .space ∧ c = 115 ∨ (t = .word ∨ (∃ s, t = .range 48 57 s) ∨ ∃ x s, t = .exact [x] s) ∧ c ≠ 115) := by
  by_cases h1 : c = 97
  · subst h1; exact ⟨_, rfl, by simp⟩
  by_cases h2 : c = 114
  · subst h2; exact ⟨_, rfl, by simp⟩
  by_cases h3 : c = 101
  · subst h3; exact ⟨_, rfl, by simp⟩
  by_cases h4 : c = 102
  · subst h4; exact ⟨_, rfl, by simp⟩
  by_cases h5 : c = 110
  · subst h5; exact ⟨_, rfl, by simp⟩
  by_cases h6 : c = 116
  · subst h6; exact ⟨_, rfl, by simp⟩
  by_cases h7 : c = 100
  · subst h7; exact ⟨_, rfl, by simp⟩
  by_cases h8 : c = 115
  · subst h8; exact ⟨_, rfl, by simp⟩
  by_cases h9 : c = 119
  · subst h9; exact ⟨_, rfl, by simp⟩
  simp [escB] at h
  refine ⟨.exact [c] [92, c], ?_, by simp [h8]⟩
  unfold terminalOf
  split <;> simp_all

/-- A tree that takes one character. -/
def tiny (n : Node) : Prop := minSize n ≤ 1 ∧ ∀ d sp w, tame d sp w n = true

theorem tiny_exact (x : Int) (s : List Int) : tiny (.exact [x] s) := by
  refine ⟨?_, fun _ _ _ => rfl⟩
  simp [minSize, wrap32]

theorem tiny_simple {n : Node} (h : tiny n) : tiny (.simple n []) := by
  refine ⟨?_, fun d sp w => by simp [tame, tames, h.2 d sp w]⟩
  have := h.1
  simp only [minSize, minSizes, listMin]
  unfold wrap32; omega

theorem tiny_esc {c : Int} (h : escB c = true) : tiny ((terminalOf [92, c]).getD .any) := by
  obtain ⟨t, ht, h1⟩ := esc_terminal c h
  rw [ht]
  rcases h1 with ⟨rfl, _⟩ | ⟨rfl | ⟨s, rfl⟩ | ⟨x, s, rfl⟩, _⟩
  · exact ⟨Nat.le_refl _, fun _ _ _ => rfl⟩
  · exact ⟨Nat.le_refl _, fun _ _ _ => rfl⟩
  · exact ⟨Nat.le_refl _, fun _ _ _ => rfl⟩
  · exact tiny_exact x s

theorem tiny_item {i : Item} (h : i.ok = true) : tiny (itemTree i) := by
  cases i with
  | chr c => exact tiny_simple (tiny_exact c _)
  | esc c => exact tiny_simple (tiny_esc h)
  | rng a b => exact tiny_simple ⟨Nat.le_refl _, fun _ _ _ => rfl⟩

theorem listMin_one : ∀ (l : List Nat), (∀ x ∈ l, x ≤ 1) → listMin l ≤ 1
  | [], _ => Nat.zero_le _
  | [x], h => h x (by simp)
  | x :: y :: l, h => by
    have := h x (by simp)
    simp only [listMin]; omega

theorem minSizes_mem : ∀ (l : List Node) (x : Nat), x ∈ minSizes l → ∃ n ∈ l, x = minSize n
  | [], x, h => by simp [minSizes] at h
  | c :: l, x, h => by
    simp only [minSizes, List.mem_cons] at h
    rcases h with h | h
    · exact ⟨c, by simp, h⟩
    · obtain ⟨n, hn, e⟩ := minSizes_mem l x h
      exact ⟨n, by simp [hn], e⟩

theorem tames_all {d sp : Bool} {w : Nat} : ∀ (l : List Node), (∀ n ∈ l, tame d sp w n = true) → tames d sp w l = true
  | [], _ => rfl
  | c :: l, h => by
    simp only [tames, Bool.and_eq_true]
    exact ⟨h c (by simp), tames_all l (fun n hn => h n (by simp [hn]))⟩

theorem class_tiny {items : List Item} (h : items.all Item.ok = true) (dash : Bool) : tiny (.alt (classTrees items dash)) := by
  have hm : ∀ n ∈ classTrees items dash, tiny n := by
    intro n hn
    simp only [classTrees, List.mem_append, List.mem_map] at hn
    rcases hn with ⟨i, hi, rfl⟩ | hn
    · exact tiny_item (List.all_eq_true.1 h i hi)
    · cases dash with
      | false => simp at hn
      | true =>
        simp at hn
        subst hn
        exact tiny_simple (tiny_exact 45 _)
  refine ⟨?_, fun d sp w => ?_⟩
  · simp only [minSize]
    refine listMin_one _ fun x hx => ?_
    obtain ⟨n, hn, rfl⟩ := minSizes_mem _ x hx
    exact (hm n hn).1
  · simp only [tame]
    exact tames_all _ fun n hn => (hm n hn).2 d sp w

theorem singles_all : ∀ (l : List Node), (∀ n ∈ l, single n = true) → singles l = true
  | [], _ => rfl
  | c :: l, h => by
    simp only [singles, Bool.and_eq_true]
    exact ⟨h c (by simp), singles_all l (fun n hn => h n (by simp [hn]))⟩

theorem class_single {items : List Item} (h : items.all Item.ok = true) (dash : Bool) (hne : (!items.isEmpty || dash) = true)
    (hs : items.any Item.isSpace = false) : single (.alt (classTrees items dash)) = true := by
  simp only [single, Bool.and_eq_true]
  refine ⟨?_, singles_all _ fun n hn => ?_⟩
  · cases items with
    | nil => cases dash <;> simp_all [classTrees]
    | cons => simp [classTrees]
  · simp only [classTrees, List.mem_append, List.mem_map] at hn
    rcases hn with ⟨i, hi, rfl⟩ | hn
    · have ho := List.all_eq_true.1 h i hi
      have hi : i.isSpace = false := by simpa using List.any_eq_false.1 hs i hi
      cases i with
      | chr c => rfl
      | rng a b => rfl
      | esc c =>
        obtain ⟨t, ht, h1⟩ := esc_terminal c ho
        simp only [Item.isSpace, beq_eq_false_iff_ne] at hi
        rcases h1 with ⟨_, h1⟩ | ⟨rfl | ⟨s, rfl⟩ | ⟨x, s, rfl⟩, _⟩
        · exact absurd h1 hi
        all_goals simp [itemTree, ht, single]
    · cases dash with
      | false => simp at hn
      | true => simp at hn; subst hn; rfl

theorem listMin_cons (x : Nat) (l : List Nat) (h : l ≠ []) : listMin (x :: l) = min x (listMin l) := by
  cases l with
  | nil => exact absurd rfl h
  | cons => rfl

theorem trees_ne : ∀ (as : Alts) (gi : Nat), minSizes (as.trees gi) ≠ []
  | .last .., _ => by simp [Alts.trees, minSizes]
  | .more .., _ => by simp [Alts.trees, minSizes]

theorem tops_ne : ∀ (as : Alts) (gi : Nat), minSizes (as.tops gi) ≠ []
  | .last .., _ => by simp [Alts.tops, minSizes]
  | .more .., _ => by simp [Alts.tops, minSizes]

mutual
theorem least_atom : ∀ (a : Atom), a.ok = true → ∀ gi, minSize (a.tree gi).1 ≤ a.shortest
  | .chr c, _, _ => by simp only [Atom.tree, Atom.shortest]; exact (tiny_simple (tiny_exact c _)).1
  | .esc c, h, _ => by simp only [Atom.tree, Atom.shortest]; exact (tiny_simple (tiny_esc h)).1
  | .dot, _, _ => by simp only [Atom.tree, Atom.shortest]; exact (tiny_simple ⟨Nat.le_refl _, fun _ _ _ => rfl⟩).1
  | .hex a b, _, _ => by simp only [Atom.tree, Atom.shortest]; exact (tiny_simple (tiny_exact _ _)).1
  | .oct a b c, _, _ => by simp only [Atom.tree, Atom.shortest]; exact (tiny_simple (tiny_exact _ _)).1
  | .cls neg items dash, h, _ => by
    simp only [Atom.ok, Bool.and_eq_true] at h
    have h1 := class_tiny h.1 dash
    cases neg <;> simp only [Atom.tree, Atom.shortest]
    · exact (tiny_simple h1).1
    · have := h1.1
      simp only [minSize, minSizes, listMin] at this ⊢
      unfold wrap32; omega
  | .group capture as, h, gi => by
    have h0 : as.ok = true := by simpa [Atom.ok] using h
    cases capture <;> simp only [Atom.tree, Atom.shortest, minSize, minSizes, listMin]
    · have := least_trees as h0 gi
      unfold wrap32; omega
    · exact least_trees as h0 (gi + 1)
theorem least_sq : ∀ (s : Sq), s.ok = true → ∀ gi, (s.tree gi).elim 0 minSize ≤ s.shortest
  | .nil dollar, _, _ => by cases dollar <;> simp [Sq.tree, minSize, minSizes, listMin, wrap32]
  | .cons a q s, h, gi => by
    simp only [Sq.ok, Bool.and_eq_true] at h
    simp only [Sq.tree, Sq.shortest, Option.elim]
    have h1 := min_graft (bare_quant (bare_atom a gi) q) (s.tree (a.tree gi).2)
    have h2 := min_quant (a.tree gi).1 q
    have h3 := Nat.mul_le_mul_right q.lo (least_atom a h.1.1 gi)
    have h4 := least_sq s h.2 (a.tree gi).2
    omega
theorem least_piece : ∀ (hat : Bool) (s : Sq), s.ok = true → (hat || !s.empty) = true → ∀ gi, minSize (pieceTree hat s gi) ≤ s.shortest
  | true, s, h, _, gi => by
    have h1 := min_graft (n := .simple .bos []) rfl (s.tree gi)
    have h2 := least_sq s h gi
    have h3 : minSize (.simple .bos []) = 0 := by simp [minSize, minSizes, listMin, wrap32]
    simp only [pieceTree, if_true]; omega
  | false, s, h, he, gi => by
    have h2 := least_sq s h gi
    cases hs : s.tree gi with
    | none => cases s with
      | nil d => cases d <;> simp [Sq.tree, Sq.empty] at hs he
      | cons => simp [Sq.tree] at hs
    | some n => rw [hs] at h2; simpa [pieceTree, hs] using h2
theorem least_trees : ∀ (as : Alts), as.ok = true → ∀ gi, listMin (minSizes (as.trees gi)) ≤ as.shortest
  | .last hat s, h, gi => by
    simp only [Alts.ok, Bool.and_eq_true] at h
    exact least_piece hat s h.1 h.2 gi
  | .more hat s as, h, gi => by
    simp only [Alts.ok, Bool.and_eq_true] at h
    have h1 := least_piece hat s h.1.1 h.1.2 gi
    have h2 := least_trees as h.2 gi
    simp only [Alts.trees, minSizes, Alts.shortest]
    rw [listMin_cons _ _ (trees_ne as gi)]
    unfold pieceTree at h1
    omega
end

theorem tame_quant {d sp : Bool} {w : Nat} {n : Node} (h : tame d sp w n = true) (q : Quant) (hq : (!q.maybe || decide (minSize n ≤ w)) = true) :
    tame d sp w (quantTree n q) = true := by
  cases q with
  | once => exact h
  | exact k m => simp [quantTree, tame, tames, h]
  | star m | plus m | opt m | atLeast k m | between k l m =>
    cases m <;> simp only [quantTree, polOf, Policy.node, tame, tames, h, Bool.and_self, Bool.true_and]
    all_goals simp_all [Quant.maybe, Quant.mode, Quant.lo, Quant.hi, umax]
    try grind

mutual
theorem atom_tame {d sp : Bool} {w : Nat} : ∀ (a : Atom), a.ok = true → a.tame d sp w = true → ∀ gi, tame d sp w (a.tree gi).1 = true
  | .chr c, _, _, _ => by simp only [Atom.tree]; exact (tiny_simple (tiny_exact c _)).2 _ _ _
  | .esc c, h, _, _ => by simp only [Atom.tree]; exact (tiny_simple (tiny_esc h)).2 _ _ _
  | .dot, _, _, _ => rfl
  | .hex a b, _, _, _ => by simp only [Atom.tree]; exact (tiny_simple (tiny_exact _ _)).2 _ _ _
  | .oct a b c, _, _, _ => by simp only [Atom.tree]; exact (tiny_simple (tiny_exact _ _)).2 _ _ _
  | .cls false items dash, h, _, _ => by
    simp only [Atom.ok, Bool.and_eq_true] at h
    simp only [Atom.tree]; exact (tiny_simple (class_tiny h.1 dash)).2 _ _ _
  | .cls true items dash, h, ht, _ => by
    simp only [Atom.ok, Bool.and_eq_true] at h
    simp only [Atom.tame] at ht
    simp only [Atom.tree, tame, tames, Bool.and_true, Bool.and_eq_true]
    refine ⟨(class_tiny h.1 dash).2 d sp w, ?_⟩
    rcases Bool.or_eq_true_iff.1 ht with h1 | h1
    · rw [h1]; rfl
    · rw [class_single h.1 dash h.2 (by simpa using h1)]; simp
  | .group capture as, h, ht, gi => by
    have h0 : as.ok = true := by simpa [Atom.ok] using h
    have h1 : as.tame d sp w = true := by simpa [Atom.tame] using ht
    cases capture <;> simp only [Atom.tree, tame, tames, Bool.and_true] <;> exact trees_tame as h0 h1 _
theorem sq_tame {d sp : Bool} {w : Nat} : ∀ (s : Sq), s.ok = true → s.tame d sp w = true → ∀ gi c, s.tree gi = some c → tame d sp w c = true
  | .nil dollar, _, ht, _, c, e => by
    cases dollar with
    | false => simp [Sq.tree] at e
    | true =>
      simp [Sq.tree] at e
      subst e
      simpa [Sq.tame, tame, tames] using ht
  | .cons a q s, h, ht, gi, c, e => by
    simp only [Sq.ok, Bool.and_eq_true] at h
    simp only [Sq.tame, Bool.and_eq_true] at ht
    simp only [Sq.tree, Option.some.injEq] at e
    subst e
    refine tame_graft (tame_quant (atom_tame a h.1.1 ht.1.1 gi) q ?_) (fun c hc => sq_tame s h.2 ht.2 _ c hc)
    have := least_atom a h.1.1 gi
    rcases Bool.or_eq_true_iff.1 ht.1.2 with h1 | h1
    · rw [h1]; rfl
    · simp at h1
      rw [decide_eq_true (by omega : minSize (a.tree gi).1 ≤ w)]; simp
theorem piece_tame {d sp : Bool} {w : Nat} : ∀ (hat : Bool) (s : Sq), s.ok = true → (hat || !s.empty) = true → s.tame d sp w = true → ∀ gi,
    tame d sp w (pieceTree hat s gi) = true
  | true, s, h, _, ht, gi => by
    simp only [pieceTree, if_true]
    exact tame_graft rfl (fun c hc => sq_tame s h ht gi c hc)
  | false, s, h, he, ht, gi => by
    cases hs : s.tree gi with
    | none => cases s with
      | nil d => cases d <;> simp [Sq.tree, Sq.empty] at hs he
      | cons => simp [Sq.tree] at hs
    | some n => simpa [pieceTree, hs] using sq_tame s h ht gi n hs
theorem trees_tame {d sp : Bool} {w : Nat} : ∀ (as : Alts), as.ok = true → as.tame d sp w = true → ∀ gi, tames d sp w (as.trees gi) = true
  | .last hat s, h, ht, gi => by
    simp only [Alts.ok, Bool.and_eq_true] at h
    have := piece_tame hat s h.1 h.2 (by simpa [Alts.tame] using ht) gi
    unfold pieceTree at this
    simp only [Alts.trees, tames, this, Bool.and_true]
  | .more hat s as, h, ht, gi => by
    simp only [Alts.ok, Bool.and_eq_true] at h
    simp only [Alts.tame, Bool.and_eq_true] at ht
    have := piece_tame hat s h.1.1 h.1.2 ht.1 gi
    unfold pieceTree at this
    simp only [Alts.trees, tames, this, Bool.true_and]
    exact trees_tame as h.2 ht.2 gi
end

theorem tops_tame {d sp : Bool} {w : Nat} : ∀ (as : Alts), as.ok = true → as.tame d sp w = true → ∀ gi, tames d sp w (as.tops gi) = true
  | .last hat s, h, ht, gi => by
    simp only [Alts.ok, Bool.and_eq_true] at h
    simp only [Alts.tops, tames, piece_tame hat s h.1 h.2 (by simpa [Alts.tame] using ht) gi, Bool.and_true]
  | .more hat s as, h, ht, gi => by
    simp only [Alts.ok, Bool.and_eq_true] at h
    simp only [Alts.tame, Bool.and_eq_true] at ht
    simp only [Alts.tops, tames, piece_tame hat s h.1.1 h.1.2 ht.1 gi, Bool.true_and]
    exact tops_tame as h.2 ht.2 _

/-- The tree of a pattern that meets the condition meets it. -/
theorem tree_tame {d sp : Bool} {w : Nat} {as : Alts} (h : as.ok = true) (ht : as.tame d sp w = true) : tame d sp w as.tree = true :=
  tops_tame as h ht 0

end ERegex

import Verif.Spec.First
import Verif.Proofs.Admission
import Verif.Proofs.Tame
import Verif.Proofs.Size
import Verif.Proofs.Prefer
/-!
# The computed first characters of a pattern as written
-/
set_option autoImplicit false
namespace ERegex
open ERegex.Spec

theorem wrap_below {n : Nat} (h : n < 4294967296) : wrap32 (n : Int) = n := by unfold wrap32; omega

theorem wrap_sum {a b : Nat} (h : a + b < 4294967296) : wrap32 ((a : Int) + (b : Int)) = a + b := by unfold wrap32; omega

theorem wrap_mul {a b : Nat} (h : a * b < 4294967296) : wrap32 ((a : Int) * (b : Int)) = a * b := by
  rw [← Int.natCast_mul]; exact wrap_below h

/-- The size of what follows. -/
def optMin (o : Option Node) : Nat := o.elim 0 minSize

theorem minSize_single {n : Node} (h : minSize n = 1) : minSize (.simple n []) = 1 := by rw [minSize_simple_nil, h]

mutual
theorem gauge_bulk_atom : ∀ a : Atom, a.gauge ≤ a.bulk
  | .group _ as => by simp only [Atom.gauge, Atom.bulk]; exact gauge_bulk_alts as
  | .chr _ | .esc _ | .dot | .hex .. | .oct .. | .cls .. => Nat.le_refl _
theorem gauge_bulk_sq : ∀ s : Sq, s.gauge ≤ s.bulk
  | .nil _ => Nat.le_refl _
  | .cons a q s => by
    have h1 := gauge_bulk_atom a
    have h2 := gauge_bulk_sq s
    have h3 := Nat.mul_le_mul_right q.lo h1
    simp only [Sq.gauge, Sq.bulk, Nat.mul_add, Nat.mul_one]
    split <;> omega
theorem gauge_bulk_alts : ∀ as : Alts, as.gauge ≤ as.bulk
  | .last _ s => by simp only [Alts.gauge, Alts.bulk]; exact gauge_bulk_sq s
  | .more _ s as => by
    have h1 := gauge_bulk_sq s
    simp only [Alts.gauge, Alts.bulk]; omega
end

/-- The node of an unquantified atom: a sequence node or a capturing group. -/
theorem atom_shapes (a : Atom) (gi : Nat) : (∃ m, (a.tree gi).1 = .simple m [] ∧ closes a .once = false) ∨
    (∃ m, (a.tree gi).1 = .group m gi [] ∧ closes a .once = true) := by
  cases a with
  | cls neg items dash => cases neg <;> exact Or.inl ⟨_, rfl, rfl⟩
  | group c as => cases c with
    | false => exact Or.inl ⟨_, rfl, rfl⟩
    | true => exact Or.inr ⟨_, rfl, rfl⟩
  | _ => exact Or.inl ⟨_, rfl, rfl⟩

theorem tiny_esc_one {c : Int} (h : escB c = true) : minSize ((terminalOf [92, c]).getD .any) = 1 := by
  obtain ⟨t, ht, h1⟩ := esc_terminal c h
  rw [ht]
  rcases h1 with ⟨rfl, _⟩ | ⟨rfl | ⟨s, rfl⟩ | ⟨x, s, rfl⟩, _⟩ <;> rfl

theorem item_one {i : Item} (h : i.ok = true) : minSize (itemTree i) = 1 := by
  cases i with
  | chr c => rfl
  | esc c => exact minSize_single (tiny_esc_one h)
  | rng a b => rfl

theorem class_one {items : List Item} (h : items.all Item.ok = true) (dash : Bool) (hne : (!items.isEmpty || dash) = true) :
    minSize (.alt (classTrees items dash)) = 1 := by
  have hm : ∀ n ∈ classTrees items dash, minSize n = 1 := by
    intro n hn
    simp only [classTrees, List.mem_append, List.mem_map] at hn
    rcases hn with ⟨i, hi, rfl⟩ | hn
    · exact item_one (List.all_eq_true.1 h i hi)
    · cases dash with
      | false => simp at hn
      | true => simp at hn; subst hn; rfl
  have hn : classTrees items dash ≠ [] := by
    cases items <;> cases dash <;> simp_all [classTrees]
  have key : ∀ l : List Node, l ≠ [] → (∀ n ∈ l, minSize n = 1) → listMin (minSizes l) = 1 := by
    intro l
    induction l with
    | nil => intro h; exact absurd rfl h
    | cons c l ih =>
      intro _ h
      cases l with
      | nil => simp [minSizes, listMin, h c (by simp)]
      | cons d l =>
        have := ih (by simp) (fun n hn => h n (by simp [hn]))
        simp only [minSizes, listMin, h c (by simp)] at this ⊢
        omega
  simp only [minSize]
  exact key _ hn hm

theorem min_append {n : Node} (h : bare n = true) (c : Node) : minSize (graft n (some c)) =
    (match n with | .repeated .. | .group .. => minSize n | _ => wrap32 ((minSize n : Int) + minSize c)) := by
  cases n <;> simp [bare] at h <;> subst h <;>
    simp only [graft, addChild, Option.getD_some, List.nil_append, minSize, minSizes, listMin]
  · rename_i m
    have := minSize_lt m
    unfold wrap32; omega
  all_goals (unfold wrap32; omega)

theorem quant_node {n : Node} (hn : bare n = true) (a : Atom) (q : Quant) (ha : (∃ m, n = .simple m [] ∧ closes a .once = false) ∨
    (∃ m gi, n = .group m gi [] ∧ closes a .once = true)) (o : Option Node) :
    minSize (graft (quantTree n q) o) = if closes a q then minSize (quantTree n q) else wrap32 ((minSize (quantTree n q) : Int) + optMin o) := by
  cases o with
  | none =>
    have := minSize_lt (quantTree n q)
    simp only [graft, optMin, Option.elim]
    split
    · rfl
    · rw [wrap_sum (by omega)]; rfl
  | some c =>
    rw [min_append (bare_quant hn q)]
    cases q with
    | once =>
      rcases ha with ⟨m, rfl, h2⟩ | ⟨m, gi, rfl, h2⟩
      · simp [quantTree, h2, optMin]
      · simp [quantTree, h2]
    | exact k m => simp [quantTree, closes]
    | star m | plus m | opt m | atLeast _ m | between _ _ m => cases m <;> simp [quantTree, closes, polOf, Policy.node, optMin]

theorem quant_min {n : Node} (q : Quant) (h : minSize n * q.lo < 4294967296) : minSize (quantTree n q) = minSize n * q.lo := by
  have hw : ∀ x : Nat, minSize n * x < 4294967296 → wrap32 (((wrap32 ((minSize n : Int) * (x : Int)) : Nat) : Int) + ((0 : Nat) : Int)) = minSize n * x := by
    intro x hx
    rw [wrap_mul hx, wrap_sum (by omega)]; rfl
  cases q with
  | once => simp [quantTree, Quant.lo]
  | exact k m => simp only [quantTree, Quant.lo, minSize] at h ⊢; exact wrap_mul h
  | star m | plus m | opt m | atLeast _ m | between _ _ m =>
    cases m <;> simp only [quantTree, Quant.lo, minSize, polOf, Policy.node, minSizes, listMin] at h ⊢ <;> exact hw _ h

mutual
theorem atom_gauge : ∀ (a : Atom), a.ok = true → a.bulk < 4294967296 → ∀ gi, minSize (a.tree gi).1 = a.gauge
  | .chr _, _, _, _ | .dot, _, _, _ | .hex .., _, _, _ | .oct .., _, _, _ => rfl
  | .esc c, h, _, _ => minSize_single (tiny_esc_one h)
  | .cls neg items dash, h, _, _ => by
    simp only [Atom.ok, Bool.and_eq_true] at h
    have h1 := class_one h.1 dash h.2
    cases neg with
    | false => exact minSize_single h1
    | true => exact minSize_single (n := .negated _) (by simp only [minSize] at h1 ⊢; exact h1)
  | .group capture as, h, hb, gi => by
    have h0 : as.ok = true := by simpa [Atom.ok] using h
    have hb' : as.bulk < 4294967296 := by simpa [Atom.bulk] using hb
    cases capture with
    | false => simp only [Atom.tree, minSize_simple_nil, Atom.gauge]; exact trees_gauge as h0 hb' gi
    | true => simp only [Atom.tree, minSize, Atom.gauge]; exact trees_gauge as h0 hb' (gi + 1)
theorem sq_gauge : ∀ (s : Sq), s.ok = true → s.bulk < 4294967296 → ∀ gi, optMin (s.tree gi) = s.gauge
  | .nil dollar, _, _, _ => by cases dollar <;> rfl
  | .cons a q s, h, hb, gi => by
    simp only [Sq.ok, Bool.and_eq_true] at h
    simp only [Sq.bulk, Nat.mul_add, Nat.mul_one] at hb
    have g1 := Nat.mul_le_mul_right q.lo (gauge_bulk_atom a)
    have ha := atom_gauge a h.1.1 (by omega) gi
    have hs := sq_gauge s h.2 (by omega) (a.tree gi).2
    have g2 := gauge_bulk_sq s
    have hq := quant_min (n := (a.tree gi).1) q (by rw [ha]; omega)
    show minSize (graft (quantTree (a.tree gi).1 q) (s.tree (a.tree gi).2)) = _
    rw [quant_node (bare_atom a gi) a q (by
      rcases atom_shapes a gi with ⟨m, h1, h2⟩ | ⟨m, h1, h2⟩
      · exact Or.inl ⟨m, h1, h2⟩
      · exact Or.inr ⟨m, gi, h1, h2⟩), hq, hs, ha, Sq.gauge]
    split
    · omega
    · rw [wrap_sum (by omega)]
theorem piece_gauge : ∀ (hat : Bool) (s : Sq), s.ok = true → (hat || !s.empty) = true → s.bulk < 4294967296 → ∀ gi, minSize (pieceTree hat s gi) = s.gauge
  | true, s, h, _, hb, gi => by
    have hs := sq_gauge s h hb gi
    have g2 := gauge_bulk_sq s
    simp only [pieceTree, if_true]
    cases ht : s.tree gi with
    | none => rw [ht] at hs; simp only [graft]; rw [← hs]; rfl
    | some c =>
      rw [ht] at hs
      rw [min_append rfl]
      have hs' : minSize c = s.gauge := hs
      simp only [hs']
      have : minSize (.simple .bos []) = 0 := rfl
      rw [this, wrap_sum (by omega)]; omega
  | false, s, h, he, hb, gi => by
    have hs := sq_gauge s h hb gi
    cases ht : s.tree gi with
    | none => cases s with
      | nil d => cases d <;> simp [Sq.tree, Sq.empty] at ht he
      | cons => simp [Sq.tree] at ht
    | some n => rw [ht] at hs; simpa [pieceTree, ht, optMin] using hs
theorem trees_gauge : ∀ (as : Alts), as.ok = true → as.bulk < 4294967296 → ∀ gi, listMin (minSizes (as.trees gi)) = as.gauge
  | .last hat s, h, hb, gi => by
    simp only [Alts.ok, Bool.and_eq_true] at h
    exact piece_gauge hat s h.1 h.2 (by simpa [Alts.bulk] using hb) gi
  | .more hat s as, h, hb, gi => by
    simp only [Alts.ok, Bool.and_eq_true] at h
    simp only [Alts.bulk] at hb
    have h1 := piece_gauge hat s h.1.1 h.1.2 (by omega) gi
    have h2 := trees_gauge as h.2 (by omega) gi
    unfold pieceTree at h1
    simp only [Alts.trees, minSizes, Alts.gauge]
    rw [listMin_cons _ _ (trees_ne as gi), h1, h2]
end

theorem tops_gauge : ∀ (as : Alts), as.ok = true → as.bulk < 4294967296 → ∀ gi, listMin (minSizes (as.tops gi)) = as.gauge
  | .last hat s, h, hb, gi => by
    simp only [Alts.ok, Bool.and_eq_true] at h
    exact piece_gauge hat s h.1 h.2 (by simpa [Alts.bulk] using hb) gi
  | .more hat s as, h, hb, gi => by
    simp only [Alts.ok, Bool.and_eq_true] at h
    simp only [Alts.bulk] at hb
    simp only [Alts.tops, minSizes, Alts.gauge]
    rw [listMin_cons _ _ (tops_ne as _), piece_gauge hat s h.1.1 h.1.2 (by omega) gi, tops_gauge as h.2 (by omega) _]

theorem tree_gauge {as : Alts} (h : as.ok = true) (hb : as.bulk < 4294967296) : minSize as.tree = as.gauge := tops_gauge as h hb 0

/-! ## the sets -/

/-- The set computed for `t` is `f`. -/
def Fst (t : Node) (f : Int → Bool) : Prop := Sorted (admSet t) ∧ ∀ x, x ∈ admSet t ↔ f x = true

theorem fst_congr {t : Node} {f g : Int → Bool} (h : Fst t f) (e : ∀ x, f x = g x) : Fst t g := ⟨h.1, fun x => by rw [← e x]; exact h.2 x⟩

theorem sorted_one (x : Int) : Sorted [x] := by simp [Sorted]

theorem fst_simple {m : Node} {f : Int → Bool} (h : Fst m f) : Fst (.simple m []) f := by
  have e : admSet (.simple m []) = extractAdm [admSet m] := by simp [admSet, admSets]
  refine ⟨by rw [e]; exact sorted_ext1 h.1, fun x => ?_⟩
  rw [e, mem_ext1]; exact h.2 x

theorem fst_exact (c : Int) (l : List Int) : Fst (.exact [c] l) (fun x => x == c) := ⟨sorted_one c, fun x => by simp [admSet]⟩

theorem fst_range (a b : Int) (l : List Int) : Fst (.range a b l) (fun x => decide (a ≤ x) && decide (x ≤ b)) :=
  ⟨sorted_admRange a b, fun x => by simp [admSet, mem_admRange]⟩

theorem fst_esc {c : Int} (h : escB c = true) : Fst ((terminalOf [92, c]).getD .any) (escape c) := by
  by_cases h1 : c = 97
  · subst h1; exact fst_congr (fst_exact 7 _) (fun x => by simp [escape])
  by_cases h2 : c = 114
  · subst h2; exact fst_congr (fst_exact 13 _) (fun x => by simp [escape])
  by_cases h3 : c = 101
  · subst h3; exact fst_congr (fst_exact 27 _) (fun x => by simp [escape])
  by_cases h4 : c = 102
  · subst h4; exact fst_congr (fst_exact 12 _) (fun x => by simp [escape])
  by_cases h5 : c = 110
  · subst h5; exact fst_congr (fst_exact 10 _) (fun x => by simp [escape])
  by_cases h6 : c = 116
  · subst h6; exact fst_congr (fst_exact 9 _) (fun x => by simp [escape])
  by_cases h7 : c = 100
  · subst h7; exact fst_congr (fst_range 48 57 _) (fun x => by simp [escape])
  by_cases h8 : c = 115
  · subst h8
    refine ⟨sorted_spaceSet, fun x => ?_⟩
    show x ∈ spaceSet ↔ _
    simp [spaceSet, escape, or_assoc]
  by_cases h9 : c = 119
  · subst h9
    refine ⟨sorted_wordSet, fun x => ?_⟩
    show x ∈ wordSet ↔ _
    rw [mem_wordSet]; simp [escape, or_assoc]
  have : terminalOf [92, c] = some (.exact [c] [92, c]) := by
    simp [escB] at h
    unfold terminalOf
    split <;> simp_all
  rw [this]
  exact fst_congr (fst_exact c _) (fun x => by simp [escape, *])

theorem fst_item {i : Item} (h : i.ok = true) : Fst (itemTree i) i.test := by
  cases i with
  | chr c => exact fst_simple (fst_exact c _)
  | esc c => exact fst_simple (fst_esc h)
  | rng a b => exact fst_simple (fst_range a b _)

theorem adm_alt (c : Node) (cs : List Node) : admSet (.alt (c :: cs)) = if minSize c = 0 then extractAdm (admSet c :: admSets cs) else extractAdm [admSet c] := by
  cases cs with
  | nil => simp [admSet, admSets]
  | cons d cs => simp [admSet]

theorem fst_class {items : List Item} (h : items.all Item.ok = true) {dash : Bool} (hne : (!items.isEmpty || dash) = true) :
    Fst (.alt (classTrees items dash)) (headItem items).test := by
  cases items with
  | nil =>
    have hd : dash = true := by simpa using hne
    subst hd
    have h1 : Fst (itemTree (.chr 45)) (Item.chr 45).test := fst_simple (fst_exact 45 _)
    have e : admSet (.alt (classTrees [] true)) = extractAdm [admSet (itemTree (.chr 45))] := rfl
    exact ⟨by rw [e]; exact sorted_ext1 h1.1, fun x => by rw [e, mem_ext1]; exact h1.2 x⟩
  | cons i items =>
    simp only [List.all_cons, Bool.and_eq_true] at h
    have hi := fst_item h.1
    have e : admSet (.alt (classTrees (i :: items) dash)) = extractAdm [admSet (itemTree i)] := by
      simp only [classTrees, List.map_cons, List.cons_append]
      rw [adm_alt, if_neg (by rw [item_one h.1]; simp)]
    refine ⟨by rw [e]; exact sorted_ext1 hi.1, fun x => by rw [e, mem_ext1]; exact hi.2 x⟩

theorem fst_neg {m : Node} {f : Int → Bool} (h : Fst m f) : Fst (.negated m) (fun x => f x != ascii x) := by
  have e : admSet (.negated m) = complementSet (extractAdm [admSet m]) := by simp [admSet]
  refine ⟨by rw [e]; exact sorted_complementSet (sorted_ext1 h.1), fun x => ?_⟩
  rw [e, mem_complementSet (sorted_ext1 h.1), mem_ext1, h.2 x]
  simp only [ascii]
  by_cases h1 : 0 ≤ x <;> by_cases h2 : x ≤ 127 <;> cases f x <;> simp_all

/-- … of what follows, if anything does. -/
def FstO (o : Option Node) (g : Int → Bool) : Prop := match o with | none => ∀ x, g x = false | some c => Fst c g

theorem mem_ext2 (x : Int) (a b : List Int) : x ∈ extractAdm [a, b] ↔ x ∈ a ∨ x ∈ b := by simp [mem_extractAdm]
theorem sorted_ext2 {a b : List Int} (ha : Sorted a) (hb : Sorted b) : Sorted (extractAdm [a, b]) :=
  sorted_extractAdm _ (by simpa using ⟨ha, hb⟩)

theorem fst_graft {n : Node} {a : Atom} {q : Quant} {f g : Int → Bool} {o : Option Node} (ha : (∃ m, n = .simple m [] ∧ closes a .once = false) ∨
    (∃ m gi, n = .group m gi [] ∧ closes a .once = true)) (hz : minSize n = a.gauge) (hn : Fst n f) (ho : FstO o g) :
    Fst (graft (quantTree n q) o) (fun x => f x || (looksOn a q && g x)) := by
  have h1 : Fst (quantTree n q) (fun x => f x || false) := by
    refine fst_congr (f := f) ?_ (fun x => by simp)
    have e1 : Sorted (extractAdm [admSet n]) ∧ ∀ x, x ∈ extractAdm [admSet n] ↔ f x = true :=
      ⟨sorted_ext1 hn.1, fun x => by rw [mem_ext1]; exact hn.2 x⟩
    cases q with
    | once => exact hn
    | exact k m => exact e1
    | star m | plus m | opt m | atLeast _ m | between _ _ m =>
      have e2 : ∀ lo : Nat, Sorted (if lo = 0 then extractAdm (admSet n :: admSets []) else admSet n) ∧
          ∀ x, x ∈ (if lo = 0 then extractAdm (admSet n :: admSets []) else admSet n) ↔ f x = true := by
        intro lo
        split
        · exact e1
        · exact hn
      cases m <;> exact e2 _
  cases o with
  | none =>
    exact fst_congr h1 (fun x => by have hg : g x = false := ho x; simp [hg])
  | some c =>
    have hc : Fst c g := ho
    have keep : looksOn a q = false → admSet (graft (quantTree n q) (some c)) = admSet (quantTree n q) → Fst (graft (quantTree n q) (some c)) (fun x => f x || (looksOn a q && g x)) := by
      intro h2 h3
      exact ⟨by rw [h3]; exact h1.1, fun x => by rw [h3, h2]; simpa using h1.2 x⟩
    have e2 : ∀ lo : Nat, Sorted (if lo = 0 then extractAdm (admSet n :: admSets ([] ++ [c])) else admSet n) ∧
        ∀ x, x ∈ (if lo = 0 then extractAdm (admSet n :: admSets ([] ++ [c])) else admSet n) ↔ (f x || (lo == 0 && g x)) = true := by
      intro lo
      simp only [List.nil_append, admSets]
      split
      · rename_i h; subst h
        refine ⟨sorted_ext2 hn.1 hc.1, fun x => ?_⟩
        rw [mem_ext2, hn.2, hc.2]; simp
      · rename_i h
        refine ⟨hn.1, fun x => ?_⟩
        rw [hn.2]; simp [h]
    cases q with
    | once =>
      rcases ha with ⟨m, rfl, h2⟩ | ⟨m, gi, rfl, h2⟩
      · rw [minSize_simple_nil] at hz
        have hm : ∀ x, x ∈ admSet m ↔ f x = true := fun x => by
          rw [← hn.2 x]; simp [admSet, admSets, mem_ext1]
        have hsm : Sorted (extractAdm [admSet m]) := by simpa [admSet, admSets] using hn.1
        have e : admSet (graft (quantTree (.simple m []) .once) (some c)) = if minSize m = 0 then extractAdm [admSet m, admSet c] else extractAdm [admSet m] := rfl
        have hl : looksOn a .once = (a.gauge == 0) := by simp [looksOn, h2, Quant.lo]
        refine ⟨?_, fun x => ?_⟩
        · rw [e]
          split
          · exact sorted_ext2 (by rwa [extractAdm_one] at hsm) hc.1
          · exact hsm
        · rw [e, hl, ← hz]
          split
          · rename_i h0; rw [mem_ext2, hm, hc.2, h0]; simp
          · rename_i h0; rw [mem_ext1, hm]; simp [h0]
      · exact keep (by simp [looksOn, h2]) rfl
    | exact k m => exact keep (by simp [looksOn, closes]) rfl
    | star m | plus m | opt m | atLeast _ m | between _ _ m =>
      cases m <;> exact ⟨(e2 _).1, fun x => ((e2 _).2 x).trans (by simp [looksOn, closes, Quant.lo])⟩

theorem any_all (x : Int) : x ∈ admRange 0 127 ↔ ascii x = true := by simp [mem_admRange, ascii]

theorem fst_any : Fst .any ascii := ⟨sorted_admRange 0 127, fun x => any_all x⟩

theorem fst_bos : Fst (.simple .bos []) (fun x => (false != ascii x)) := by
  have e : admSet (.simple .bos []) = extractAdm [complementSet []] := by simp only [admSet, admSets, ite_self]
  refine ⟨by rw [e]; exact sorted_ext1 (sorted_complementSet (by simp [Sorted])), fun x => ?_⟩
  rw [e, mem_ext1, mem_complementSet (by simp [Sorted])]
  simp [ascii]

theorem fst_eol : Fst (.simple .eol []) (fun x => ascii x && x != 10) := by
  have e : admSet (.simple .eol []) = extractAdm [complementSet [10]] := by simp only [admSet, admSets, ite_self]
  refine ⟨by rw [e]; exact sorted_ext1 (sorted_complementSet (sorted_one 10)), fun x => ?_⟩
  rw [e, mem_ext1, mem_complementSet (sorted_one 10)]
  by_cases h : x = 10
  · subst h; simp [ascii]
  · simp [ascii, h]

/-- The sets of several trees together. -/
def Fsts (l : List Node) (f : Int → Bool) : Prop := Sorted (extractAdm (admSets l)) ∧ ∀ x, x ∈ extractAdm (admSets l) ↔ f x = true

theorem fsts_cons {t : Node} {l : List Node} {f g : Int → Bool} (h : Fst t f) (hl : Fsts l g) : Fsts (t :: l) (fun x => f x || g x) := by
  have e : extractAdm (admSets (t :: l)) = extractAdm [admSet t, extractAdm (admSets l)] := by
    show mergeSets (admSet t) (extractAdm (admSets l)) = mergeSets (admSet t) (extractAdm [extractAdm (admSets l)])
    rw [extractAdm_one]
  refine ⟨by rw [e]; exact sorted_ext2 h.1 hl.1, fun x => ?_⟩
  rw [e, mem_ext2, h.2, hl.2]; simp

theorem fst_alt_cons {t : Node} {l : List Node} {f g : Int → Bool} (h : Fst t f) (hl : Fsts l g) {k : Nat} (hk : minSize t = k) :
    Fst (.alt (t :: l)) (fun x => f x || (k == 0 && g x)) := by
  subst hk
  refine ⟨?_, fun x => ?_⟩
  · rw [adm_alt]
    split
    · exact (fsts_cons h hl).1
    · exact sorted_ext1 h.1
  · rw [adm_alt]
    split
    · rename_i h0
      rw [h0]
      exact (fsts_cons h hl).2 x
    · rename_i h0
      rw [mem_ext1, h.2]; simp [h0]

mutual
theorem atom_firsts : ∀ (a : Atom), a.ok = true → a.bulk < 4294967296 → ∀ gi, Fst (a.tree gi).1 a.firsts
  | .chr c, _, _, _ => fst_congr (fst_simple (fst_exact c _)) (fun x => by simp [Atom.firsts])
  | .dot, _, _, _ => fst_congr (fst_simple fst_any) (fun x => by simp [Atom.firsts])
  | .hex a b, h, _, _ => by
    simp only [Atom.ok, Bool.and_eq_true] at h
    exact fst_congr (fst_simple (fst_exact (hexPair a b) _)) (fun x => by rw [hexPair_byte h.1 h.2, Atom.firsts])
  | .oct a b c, h, _, _ => by
    simp only [Atom.ok, Bool.and_eq_true] at h
    exact fst_congr (fst_simple (fst_exact (octTriple a b c) _)) (fun x => by rw [octTriple_byte h.1.1 h.1.2 h.2, Atom.firsts])
  | .esc c, h, _, _ => fst_congr (fst_simple (fst_esc h)) (fun x => by simp [Atom.firsts])
  | .cls neg items dash, h, _, _ => by
    simp only [Atom.ok, Bool.and_eq_true] at h
    have h1 := fst_class h.1 h.2
    cases neg with
    | false => exact fst_congr (fst_simple h1) (fun x => by simp [Atom.firsts])
    | true => exact fst_congr (fst_simple (fst_neg h1)) (fun x => by simp [Atom.firsts])
  | .group capture as, h, hb, gi => by
    have h0 : as.ok = true := by simpa [Atom.ok] using h
    have hb' : as.bulk < 4294967296 := by simpa [Atom.bulk] using hb
    cases capture with
    | false => exact fst_congr (fst_simple (trees_firsts as h0 hb' gi)) (fun x => by simp [Atom.firsts])
    | true =>
      have h1 := trees_firsts as h0 hb' (gi + 1)
      refine fst_congr (f := as.firsts) ⟨sorted_ext1 h1.1, fun x => (mem_ext1 x _).trans (h1.2 x)⟩ (fun x => by simp [Atom.firsts])
theorem sq_firsts : ∀ (s : Sq), s.ok = true → s.bulk < 4294967296 → ∀ gi, FstO (s.tree gi) s.firsts
  | .nil false, _, _, _ => fun x => by simp [Sq.firsts]
  | .nil true, _, _, _ => fst_congr fst_eol (fun x => by simp [Sq.firsts])
  | .cons a q s, h, hb, gi => by
    simp only [Sq.ok, Bool.and_eq_true] at h
    simp only [Sq.bulk, Nat.mul_add, Nat.mul_one] at hb
    have ha := atom_firsts a h.1.1 (by omega) gi
    have hs := sq_firsts s h.2 (by omega) (a.tree gi).2
    show Fst (graft (quantTree (a.tree gi).1 q) (s.tree (a.tree gi).2)) _
    exact fst_congr (fst_graft (by
      rcases atom_shapes a gi with ⟨m, h1, h2⟩ | ⟨m, h1, h2⟩
      · exact Or.inl ⟨m, h1, h2⟩
      · exact Or.inr ⟨m, gi, h1, h2⟩) (atom_gauge a h.1.1 (by omega) gi) ha hs) (fun x => by simp [Sq.firsts])
theorem piece_firsts : ∀ (hat : Bool) (s : Sq), s.ok = true → (hat || !s.empty) = true → s.bulk < 4294967296 → ∀ gi,
    Fst (pieceTree hat s gi) (fun x => (hat && ascii x) || s.firsts x)
  | true, s, h, _, hb, gi => by
    have hs := sq_firsts s h hb gi
    simp only [pieceTree, if_true]
    cases ht : s.tree gi with
    | none =>
      rw [ht] at hs
      exact fst_congr fst_bos (fun x => by have e : s.firsts x = false := hs x; simp [e])
    | some c =>
      rw [ht] at hs
      have hc : Fst c s.firsts := hs
      have e : admSet (graft (.simple .bos []) (some c)) = extractAdm [admSet .bos, admSet c] := by
        show (if minSize .bos = 0 then _ else _) = _
        exact if_pos (by simp [minSize])
      have hb : Sorted (admSet .bos) := sorted_complementSet (by simp [Sorted])
      refine ⟨by rw [e]; exact sorted_ext2 hb hc.1, fun x => ?_⟩
      rw [e, mem_ext2, hc.2]
      have := fst_bos.2 x
      rw [show admSet (.simple .bos []) = extractAdm [admSet .bos] by simp only [admSet, admSets, ite_self], mem_ext1] at this
      rw [this]; simp
  | false, s, h, he, hb, gi => by
    have hs := sq_firsts s h hb gi
    cases ht : s.tree gi with
    | none => cases s with
      | nil d => cases d <;> simp [Sq.tree, Sq.empty] at ht he
      | cons => simp [Sq.tree] at ht
    | some n => rw [ht] at hs; exact fst_congr (f := s.firsts) (by simpa [pieceTree, ht, FstO] using hs) (fun x => by simp)
theorem trees_anyFirsts : ∀ (as : Alts), as.ok = true → as.bulk < 4294967296 → ∀ gi, Fsts (as.trees gi) as.anyFirsts
  | .last hat s, h, hb, gi => by
    simp only [Alts.ok, Bool.and_eq_true] at h
    have h1 := piece_firsts hat s h.1 h.2 (by simpa [Alts.bulk] using hb) gi
    refine ⟨sorted_ext1 h1.1, fun x => (mem_ext1 x _).trans ?_⟩
    rw [Alts.anyFirsts]; exact h1.2 x
  | .more hat s as, h, hb, gi => by
    simp only [Alts.ok, Bool.and_eq_true] at h
    simp only [Alts.bulk] at hb
    have h1 := piece_firsts hat s h.1.1 h.1.2 (by omega) gi
    have h2 := trees_anyFirsts as h.2 (by omega) gi
    have h3 := fsts_cons h1 h2
    exact ⟨h3.1, fun x => by rw [Alts.anyFirsts]; exact h3.2 x⟩
theorem trees_firsts : ∀ (as : Alts), as.ok = true → as.bulk < 4294967296 → ∀ gi, Fst (.alt (as.trees gi)) as.firsts
  | .last hat s, h, hb, gi => by
    simp only [Alts.ok, Bool.and_eq_true] at h
    have h1 := piece_firsts hat s h.1 h.2 (by simpa [Alts.bulk] using hb) gi
    refine ⟨sorted_ext1 h1.1, fun x => (mem_ext1 x _).trans ?_⟩
    rw [Alts.firsts]; exact h1.2 x
  | .more hat s as, h, hb, gi => by
    simp only [Alts.ok, Bool.and_eq_true] at h
    simp only [Alts.bulk] at hb
    have h1 := piece_firsts hat s h.1.1 h.1.2 (by omega) gi
    have h2 := trees_anyFirsts as h.2 (by omega) gi
    exact fst_congr (fst_alt_cons h1 h2 (piece_gauge hat s h.1.1 h.1.2 (by omega) gi)) (fun x => by rw [Alts.firsts])
end

theorem tops_anyFirsts : ∀ (as : Alts), as.ok = true → as.bulk < 4294967296 → ∀ gi, Fsts (as.tops gi) as.anyFirsts
  | .last hat s, h, hb, gi => by
    simp only [Alts.ok, Bool.and_eq_true] at h
    have h1 := piece_firsts hat s h.1 h.2 (by simpa [Alts.bulk] using hb) gi
    refine ⟨sorted_ext1 h1.1, fun x => (mem_ext1 x _).trans ?_⟩
    rw [Alts.anyFirsts]; exact h1.2 x
  | .more hat s as, h, hb, gi => by
    simp only [Alts.ok, Bool.and_eq_true] at h
    simp only [Alts.bulk] at hb
    have h3 := fsts_cons (piece_firsts hat s h.1.1 h.1.2 (by omega) gi) (tops_anyFirsts as h.2 (by omega) (nextIdx (pieceTree hat s gi)))
    exact ⟨h3.1, fun x => by rw [Alts.anyFirsts]; exact h3.2 x⟩

/-- The first characters computed for the tree of the pattern are the described ones. -/
theorem tree_firsts : ∀ {as : Alts}, as.ok = true → as.bulk < 4294967296 → Fst as.tree as.firsts
  | .last hat s, h, hb => by
    simp only [Alts.ok, Bool.and_eq_true] at h
    have h1 := piece_firsts hat s h.1 h.2 (by simpa [Alts.bulk] using hb) 0
    refine ⟨sorted_ext1 h1.1, fun x => (mem_ext1 x _).trans ?_⟩
    rw [Alts.firsts]; exact h1.2 x
  | .more hat s as, h, hb => by
    simp only [Alts.ok, Bool.and_eq_true] at h
    simp only [Alts.bulk] at hb
    exact fst_congr (fst_alt_cons (piece_firsts hat s h.1.1 h.1.2 (by omega) 0) (tops_anyFirsts as h.2 (by omega) _)
      (piece_gauge hat s h.1.1 h.1.2 (by omega) 0)) (fun x => by rw [Alts.firsts])

end ERegex

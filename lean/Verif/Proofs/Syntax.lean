import Verif.Spec.Syntax
import Verif.Proofs.TreeBuilder
import Verif.Proofs.Denote
import Verif.Proofs.Tokenizer
/-!
# The parser builds what the pattern says
-/
set_option autoImplicit false
namespace ERegex
open Spec

/-! ## classes -/

theorem classOf_exact (c : Int) (d : List Int) : ClassOf (.exact [c] d) (fun x => x == c) := by
  intro q i j
  simp only [toRx, Den, List.length_singleton]
  constructor
  · rintro ⟨rfl, h⟩
    have := h 0 (by omega)
    simp at this
    exact ⟨rfl, c, this, by simp⟩
  · rintro ⟨rfl, x, h, hx⟩
    simp at hx; subst hx
    refine ⟨rfl, fun k hk => ?_⟩
    have : k = 0 := by omega
    subst this; simpa using h

theorem classOf_cls {m : Node} {p : Int → Bool} (h : toRx m = .cls p) : ClassOf m p := by
  intro q i j; rw [h]; simp only [Den]

theorem terminalOf_esc (c : Int) (h : escB c = true) :
    ∃ t, terminalOf [92, c] = some t ∧ ClassOf t (escape c) := by
  by_cases h1 : c = 97
  · subst h1; exact ⟨_, rfl, classOf_exact 7 _⟩
  by_cases h2 : c = 114
  · subst h2; exact ⟨_, rfl, classOf_exact 13 _⟩
  by_cases h3 : c = 101
  · subst h3; exact ⟨_, rfl, classOf_exact 27 _⟩
  by_cases h4 : c = 102
  · subst h4; exact ⟨_, rfl, classOf_exact 12 _⟩
  by_cases h5 : c = 110
  · subst h5; exact ⟨_, rfl, classOf_exact 10 _⟩
  by_cases h6 : c = 116
  · subst h6; exact ⟨_, rfl, classOf_exact 9 _⟩
  by_cases h7 : c = 100
  · subst h7; exact ⟨_, rfl, classOf_cls rfl⟩
  by_cases h8 : c = 115
  · subst h8; exact ⟨_, rfl, classOf_cls rfl⟩
  by_cases h9 : c = 119
  · subst h9; exact ⟨_, rfl, classOf_cls rfl⟩
  simp [escB] at h
  refine ⟨.exact [c] [92, c], ?_, ?_⟩
  · unfold terminalOf
    split <;> simp_all
  · have : escape c = fun x => x == c := by
      funext x; unfold escape
      simp [*]
    rw [this]; exact classOf_exact c _

/-- Tokens of an item. -/
def _root_.ERegex.Spec.Item.toks : Item → List Tok
  | .chr c => [[c]]
  | .esc c => [[92, c]]
  | .rng a b => [[a], [45], [b]]

def dashToks (d : Bool) : List Tok := if d then [[45]] else []

theorem tokens_items (items : List Item) (h : items.all Item.ok = true) {p : List Int} {ts : List Tok} (ht : Tokens p ts) :
    Tokens (items.flatMap Item.spell ++ p) (items.flatMap Item.toks ++ ts) := by
  induction items with
  | nil => simpa using ht
  | cons i items ih =>
    simp only [List.all_cons, Bool.and_eq_true] at h
    have ih := ih h.2
    simp only [List.flatMap_cons, List.append_assoc]
    cases i with
    | chr c =>
      have := h.1; simp [Item.ok, classB] at this
      exact .plain (by omega) (by omega) ih
    | esc c => exact .escaped ih
    | rng a b =>
      have := h.1; simp [Item.ok, classB] at this
      exact .plain (by omega) (by omega) (.plain (by omega) (by omega) (.plain (by omega) (by omega) ih))

/-- The tokens of the rest of a class never look like `- e …`. -/
theorem items_head (items : List Item) (h : items.all Item.ok = true) (d : Bool) (e : Tok) (tl : List Tok) :
    items.flatMap Item.toks ++ dashToks d ≠ [45] :: e :: tl := by
  cases items with
  | nil => cases d <;> simp [dashToks]
  | cons i items =>
    simp only [List.all_cons, Bool.and_eq_true] at h
    have := h.1
    cases i <;> simp [Item.ok, classB, Item.toks] at this ⊢ <;> omega

theorem classItems_chr {f : Nat} {c : Int} {tl : List Tok} (h : ∀ e tl', tl ≠ [45] :: e :: tl') :
    classItems (f + 1) ([c] :: tl) = (classItems f tl).map (fun r => .simple (.exact [c] [c]) [] :: r) := by
  rw [classItems]
  · simp
  · intro e tl' h'; exact absurd h' (h e tl')
  · intro c' h'; simp at h'

theorem classItems_esc {f : Nat} {c : Int} {tl : List Tok} {t : Node} (h : ∀ e tl', tl ≠ [45] :: e :: tl')
    (ht : terminalOf [92, c] = some t) :
    classItems (f + 1) ([92, c] :: tl) = (classItems f tl).map (fun r => .simple t [] :: r) := by
  rw [classItems]
  · rw [ht]
  · intro e tl' h'; exact absurd h' (h e tl')

theorem classItems_rng {f : Nat} {a b : Int} {tl : List Tok} (h : rangeOk a b = true) :
    classItems (f + 1) ([a] :: [45] :: [b] :: tl) =
      (classItems f tl).map (fun r => .simple (.range a b [91, a, 45, b, 93]) [] :: r) := by
  rw [classItems]; simp [h]

theorem classItems_ok (d : Bool) : ∀ (items : List Item) (f : Nat), items.all Item.ok = true →
    (items.flatMap Item.toks ++ dashToks d).length ≤ f →
    ∃ ns, classItems f (items.flatMap Item.toks ++ dashToks d) = some ns ∧
      (ns = [] → items = [] ∧ d = false) ∧
      ∀ q i j, (∃ n ∈ ns, Den q (toRx n) i j) ↔ (j = i + 1 ∧ ∃ c, q[i]? = some c ∧ listed items d c = true) := by
  intro items
  induction items with
  | nil =>
    intro f _ hl
    cases d with
    | false => exact ⟨[], by cases f <;> simp [dashToks, classItems], by simp, by simp [listed]⟩
    | true =>
      cases f with
      | zero => simp [dashToks] at hl
      | succ f =>
        refine ⟨[.simple (.exact [45] [45]) []], ?_, by simp, ?_⟩
        · simp only [List.flatMap_nil, dashToks, List.nil_append, if_true]
          rw [classItems_chr (by simp)]
          cases f <;> simp [classItems]
        · intro q i j
          have := classOf_seq_eps (classOf_exact 45 [45]) q i j
          simpa [listed] using this
  | cons it items ih =>
    intro f h hl
    simp only [List.all_cons, Bool.and_eq_true] at h
    simp only [List.flatMap_cons, List.append_assoc] at hl ⊢
    have hd := items_head items h.2 d
    have fin : ∀ (m : Node) (p : Int → Bool) (ns : List Node), ClassOf m p → (∀ x, p x = it.test x) →
        (∀ q i j, (∃ n ∈ ns, Den q (toRx n) i j) ↔ (j = i + 1 ∧ ∃ c, q[i]? = some c ∧ listed items d c = true)) →
        ∀ q i j, (∃ n ∈ (Node.simple m [] :: ns), Den q (toRx n) i j) ↔
          (j = i + 1 ∧ ∃ c, q[i]? = some c ∧ listed (it :: items) d c = true) := by
      intro m p ns hm hp hns q i j
      simp only [List.mem_cons, exists_eq_or_imp, hns q i j, (classOf_seq_eps hm) q i j, hp, listed, List.any_cons, Bool.or_assoc]
      constructor
      · rintro (⟨h1, c, h2, h3⟩ | ⟨h1, c, h2, h3⟩)
        · exact ⟨h1, c, h2, by simp [h3]⟩
        · exact ⟨h1, c, h2, by simp only [Bool.or_eq_true] at h3 ⊢; exact Or.inr h3⟩
      · rintro ⟨h1, c, h2, h3⟩
        rw [Bool.or_eq_true] at h3
        rcases h3 with h3 | h3
        · exact Or.inl ⟨h1, c, h2, h3⟩
        · exact Or.inr ⟨h1, c, h2, h3⟩
    cases it with
    | chr c =>
      cases f with
      | zero => simp [Item.toks] at hl
      | succ f =>
        obtain ⟨ns, h1, h2, h3⟩ := ih f h.2 (by simp [Item.toks] at hl ⊢; omega)
        refine ⟨.simple (.exact [c] [c]) [] :: ns, ?_, by simp, fin _ _ ns (classOf_exact c _) (fun x => rfl) h3⟩
        show classItems (f + 1) ([c] :: (items.flatMap Item.toks ++ dashToks d)) = _
        rw [classItems_chr hd, h1]; rfl
    | esc c =>
      cases f with
      | zero => simp [Item.toks] at hl
      | succ f =>
        obtain ⟨ns, h1, h2, h3⟩ := ih f h.2 (by simp [Item.toks] at hl ⊢; omega)
        obtain ⟨t, ht, hc⟩ := terminalOf_esc c h.1
        refine ⟨.simple t [] :: ns, ?_, by simp, fin _ _ ns hc (fun x => rfl) h3⟩
        show classItems (f + 1) ([92, c] :: (items.flatMap Item.toks ++ dashToks d)) = _
        rw [classItems_esc hd ht, h1]; rfl
    | rng a b =>
      cases f with
      | zero => simp [Item.toks] at hl
      | succ f =>
        obtain ⟨ns, h1, h2, h3⟩ := ih f h.2 (by simp [Item.toks] at hl ⊢; omega)
        have hr : rangeOk a b = true := by have := h.1; simp [Item.ok] at this; simp [rangeOk]; omega
        refine ⟨.simple (.range a b [91, a, 45, b, 93]) [] :: ns, ?_, by simp,
          fin _ _ ns (classOf_cls (p := fun x => decide (a ≤ x) && decide (x ≤ b)) (by simp [toRx])) (fun x => rfl) h3⟩
        show classItems (f + 1) ([a] :: [45] :: [b] :: (items.flatMap Item.toks ++ dashToks d)) = _
        rw [classItems_rng hr, h1]; rfl

theorem classNode_ok (items : List Item) (d : Bool) (h : items.all Item.ok = true) (hne : (!items.isEmpty || d) = true) :
    ∃ n, classNode (items.flatMap Item.toks ++ dashToks d) = some n ∧ ClassOf n (listed items d) := by
  obtain ⟨ns, h1, h2, h3⟩ := classItems_ok d items _ h (Nat.le_refl _)
  have hns : ns ≠ [] := by
    intro e
    obtain ⟨e1, e2⟩ := h2 e
    subst e1 e2; simp at hne
  refine ⟨.alt ns, ?_, ?_⟩
  · unfold classNode
    rw [h1]
    cases ns with
    | nil => exact absurd rfl hns
    | cons => rfl
  · intro q i j
    simp only [toRx]
    rw [den_cont q hns, h3]

theorem classOf_negated {n : Node} {p : Int → Bool} (h : ClassOf n p) : ClassOf (.negated n) (fun x => !p x) := by
  intro q i j
  simp only [toRx, Den]
  constructor
  · rintro ⟨h1, h2, h3⟩
    refine ⟨h1, q[i], by simp [h2], ?_⟩
    have := h3 (i + 1)
    rw [h q i (i + 1)] at this
    simpa [h2] using this
  · rintro ⟨h1, c, h2, h3⟩
    have hi : i < q.length := by
      rcases Nat.lt_or_ge i q.length with hn | hn
      · exact hn
      · rw [List.getElem?_eq_none hn] at h2; simp at h2
    refine ⟨h1, hi, fun k hk => ?_⟩
    rw [h q i k] at hk
    obtain ⟨_, c', h4, h5⟩ := hk
    rw [h2] at h4; simp at h4; subst h4; simp [h5] at h3

/-! ## well nested tokens -/

theorem depth_append (op cl : Int) (a b : List Tok) : depth op cl (a ++ b) = depth op cl a + depth op cl b := by
  simp only [depth, List.count_append]; omega

theorem depth_pair {op cl : Int} (hb : Bracket [op] [cl]) {o c : List Int} (h : Bracket o c) :
    0 ≤ depth op cl [o] ∧ depth op cl [o] + depth op cl [c] = 0 := by
  cases hb <;> cases h <;> decide

theorem depth_tok {op cl : Int} (hb : Bracket [op] [cl]) {t : Tok} (h : NoBracket t) : depth op cl [t] = 0 := by
  obtain ⟨h1, h2⟩ := h _ _ hb
  simp [depth, List.count_cons, h1, h2]

theorem wellNested_depth {op cl : Int} (hb : Bracket [op] [cl]) {w : List Tok} (h : WellNested w) :
    depth op cl w = 0 ∧ ∀ k, 0 ≤ depth op cl (w.take k) := by
  induction h with
  | nil => simp [depth]
  | @tok t ts ht _ ih =>
    have e : ∀ l : List Tok, depth op cl (t :: l) = depth op cl l := fun l => by
      rw [show t :: l = [t] ++ l from rfl, depth_append, depth_tok hb ht]; omega
    refine ⟨by rw [e]; exact ih.1, fun k => ?_⟩
    cases k with
    | zero => simp [depth]
    | succ k => rw [List.take_succ_cons, e]; exact ih.2 k
  | @pair o c a b hp _ _ iha ihb =>
    have hd := depth_pair hb hp
    have e : ∀ l : List Tok, depth op cl (o :: l) = depth op cl [o] + depth op cl l := fun l => by
      rw [show o :: l = [o] ++ l from rfl, depth_append]
    have e' : ∀ l : List Tok, depth op cl (c :: l) = depth op cl [c] + depth op cl l := fun l => by
      rw [show c :: l = [c] ++ l from rfl, depth_append]
    refine ⟨by rw [e, depth_append, e', iha.1, ihb.1]; omega, fun k => ?_⟩
    cases k with
    | zero => simp [depth]
    | succ k =>
      rw [List.take_succ_cons, e, List.take_append, depth_append]
      have h1 := iha.2 k
      rcases Nat.lt_or_ge a.length k with hk | hk
      · obtain ⟨m, hm⟩ : ∃ m, k - a.length = m + 1 := ⟨k - a.length - 1, by omega⟩
        rw [hm, List.take_succ_cons, e', List.take_of_length_le (by omega), iha.1]
        have := ihb.2 m
        omega
      · rw [show k - a.length = 0 by omega]
        have : depth op cl (List.take 0 (c :: b)) = 0 := by simp [depth]
        omega

theorem extract_wellNested {op cl : Int} (hb : Bracket [op] [cl]) {w : List Tok} (h : WellNested w) (r : List Tok) :
    extractT op cl (w ++ [cl] :: r) = some (w, r) := by
  have hne : op ≠ cl := by cases hb <;> decide
  have hd := wellNested_depth hb h
  have := extractAux_complete op cl hne w 0 [] r (by simpa using hd.1) (fun a b e => by
    have := hd.2 a.length
    rw [e, List.take_left] at this
    simpa using this)
  simpa [extractT] using this

theorem topFree_append {sep : Int} {a b : List Tok} (ha : TopFree sep a) (hb : TopFree sep b) : TopFree sep (a ++ b) := by
  induction ha with
  | nil => simpa using hb
  | tok h1 h2 _ ih => exact .tok h1 h2 ih
  | @pair o c u v h1 h2 h3 ih =>
    rw [List.cons_append, List.append_assoc, List.cons_append]
    exact .pair h1 h2 ih

theorem wellNested_noBrackets {ts : List Tok} (h : ∀ t ∈ ts, NoBracket t) : WellNested ts := by
  induction ts with
  | nil => exact .nil
  | cons t ts ih => exact .tok (h t (by simp)) (ih fun t ht => h t (by simp [ht]))

theorem noBracket_chr {c : Int} (h : ![123, 125, 40, 41, 91, 93].contains c = true) : NoBracket [c] := by
  simp at h
  intro o c' hb; cases hb <;> simp <;> omega

theorem noBracket_esc (c : Int) : NoBracket [92, c] := by
  intro o c' hb; cases hb <;> simp

theorem noBracket_digits {n : List Int} (h : n.all digitB = true) : NoBracket n := by
  intro o c hb
  have key : ∀ x : Int, digitB x = false → n ≠ [x] := by
    rintro x hx rfl; simp [hx] at h
  cases hb <;> exact ⟨key _ rfl, key _ rfl⟩

theorem wellNested_join : ∀ (ps : List (List Tok)), (∀ p ∈ ps, TopFree 124 p) → WellNested (joinWith 124 ps)
  | [], _ => .nil
  | [p], h => by simpa [joinWith] using topFree_wellNested (h p (by simp))
  | p :: q :: ps, h => by
    simp only [joinWith]
    refine wellNested_append (topFree_wellNested (h p (by simp))) (.tok ?_ (wellNested_join (q :: ps) fun x hx => h x (by simp at hx ⊢; exact Or.inr hx)))
    intro o c hb; cases hb <;> decide

/-! ## tokens of the syntax -/

def _root_.ERegex.Spec.QMode.toks : QMode → List Tok
  | .greedy => []
  | .lazy => [[63]]
  | .possessive => [[43]]

def _root_.ERegex.Spec.Quant.toks : Quant → List Tok
  | .once => []
  | .star m => [42] :: m.toks
  | .plus m => [43] :: m.toks
  | .opt m => [63] :: m.toks
  | .exact n m => [123] :: n :: [125] :: m.toks
  | .atLeast n m => [123] :: n :: [44] :: [125] :: m.toks
  | .between n k m => [123] :: n :: [44] :: k :: [125] :: m.toks

def hatToks (h : Bool) : List Tok := if h then [[94]] else []

mutual
def _root_.ERegex.Spec.Atom.toks : Atom → List Tok
  | .chr c => [[c]]
  | .esc c => [[92, c]]
  | .dot => [[46]]
  | .hex a b => [[92, 120], [a], [b]]
  | .oct a b c => [[92, a], [b], [c]]
  | .cls neg items dash => [91] :: (hatToks neg ++ (items.flatMap Item.toks ++ dashToks dash) ++ [[93]])
  | .group capture as => [40] :: ((if capture then [] else [[63], [58]]) ++ (as.toks ++ [[41]]))
def _root_.ERegex.Spec.Sq.toks : Sq → List Tok
  | .nil dollar => if dollar then [[36]] else []
  | .cons a q s => a.toks ++ (q.toks ++ s.toks)
def _root_.ERegex.Spec.Alts.toks : Alts → List Tok
  | .last hat s => hatToks hat ++ s.toks
  | .more hat s as => hatToks hat ++ s.toks ++ [124] :: as.toks
end

theorem digits_no {n : List Int} (h : n.all digitB = true) : 125 ∉ n ∧ 44 ∉ n := by
  rw [List.all_eq_true] at h
  exact ⟨fun hm => absurd (h _ hm) (by decide), fun hm => absurd (h _ hm) (by decide)⟩

theorem boundB_iff {n : List Int} (h : boundB n = true) : n ≠ [] ∧ n.all digitB = true ∧ decimal n < 4294967295 := by
  simp only [boundB, Bool.and_eq_true, Bool.not_eq_true', decide_eq_true_eq, List.isEmpty_eq_false_iff] at h
  exact ⟨h.1.1, h.1.2, h.2⟩

theorem tokens_mode (m : QMode) {p : List Int} {ts : List Tok} (ht : Tokens p ts) : Tokens (m.spell ++ p) (m.toks ++ ts) := by
  cases m
  · exact ht
  · exact .plain (by decide) (by decide) ht
  · exact .plain (by decide) (by decide) ht

theorem tokens_quant (q : Quant) (h : q.ok = true) {p : List Int} {ts : List Tok} (ht : Tokens p ts) :
    Tokens (q.spell ++ p) (q.toks ++ ts) := by
  cases q with
  | once => exact ht
  | star m => exact .plain (by decide) (by decide) (tokens_mode m ht)
  | plus m => exact .plain (by decide) (by decide) (tokens_mode m ht)
  | opt m => exact .plain (by decide) (by decide) (tokens_mode m ht)
  | exact n m =>
    have hb := boundB_iff h
    have hd := digits_no hb.2.1
    have := Tokens.brace1 hd.1 hd.2 (tokens_mode m ht)
    simpa [Quant.spell, Quant.toks] using this
  | atLeast n m =>
    have hb := boundB_iff h
    have hd := digits_no hb.2.1
    have := Tokens.brace2 hd.1 hd.2 (tokens_mode m ht)
    simpa [Quant.spell, Quant.toks] using this
  | between n k m =>
    simp only [Quant.ok, Bool.and_eq_true] at h
    have hb := boundB_iff h.1
    have hk := boundB_iff h.2
    have hd := digits_no hb.2.1
    have := Tokens.brace3 hd.1 hd.2 hk.1 (digits_no hk.2.1).1 (tokens_mode m ht)
    simpa [Quant.spell, Quant.toks] using this

theorem tokens_hat (h : Bool) {p : List Int} {ts : List Tok} (ht : Tokens p ts) :
    Tokens ((if h then [94] else []) ++ p) (hatToks h ++ ts) := by
  cases h
  · exact ht
  · exact .plain (by decide) (by decide) ht

mutual
theorem tokens_atom : ∀ (a : Atom), a.ok = true → ∀ {p : List Int} {ts : List Tok}, Tokens p ts → Tokens (a.spell ++ p) (a.toks ++ ts)
  | .chr c, h, p, ts, ht => by
    simp [Atom.ok, plainB] at h
    exact .plain (by omega) (by omega) ht
  | .esc c, h, p, ts, ht => .escaped ht
  | .dot, h, p, ts, ht => .plain (by decide) (by decide) ht
  | .hex a b, h, p, ts, ht => by
    simp [Atom.ok, digitB] at h
    exact .escaped (.plain (by omega) (by omega) (.plain (by omega) (by omega) ht))
  | .oct a b c, h, p, ts, ht => by
    simp [Atom.ok, octalB] at h
    exact .escaped (.plain (by omega) (by omega) (.plain (by omega) (by omega) ht))
  | .cls neg items dash, h, p, ts, ht => by
    simp only [Atom.ok, Bool.and_eq_true] at h
    have h1 : Tokens ([93] ++ p) ([[93]] ++ ts) := .plain (by decide) (by decide) ht
    have h2 : Tokens ((if dash then [45] else []) ++ ([93] ++ p)) (dashToks dash ++ ([[93]] ++ ts)) := by
      cases dash
      · exact h1
      · exact .plain (by decide) (by decide) h1
    have h3 := tokens_hat neg (tokens_items items h.1 h2)
    have := Tokens.plain (c := 91) (by decide) (by decide) h3
    simpa [Atom.spell, Atom.toks] using this
  | .group capture as, h, p, ts, ht => by
    have h1 : Tokens ([41] ++ p) ([[41]] ++ ts) := .plain (by decide) (by decide) ht
    have h2 := tokens_alts as (by simpa [Atom.ok] using h) h1
    have h3 : Tokens ((if capture then [] else [63, 58]) ++ (as.spell ++ ([41] ++ p)))
        ((if capture then [] else [[63], [58]]) ++ (as.toks ++ ([[41]] ++ ts))) := by
      cases capture
      · exact .plain (by decide) (by decide) (.plain (by decide) (by decide) h2)
      · exact h2
    have := Tokens.plain (c := 40) (by decide) (by decide) h3
    simpa [Atom.spell, Atom.toks] using this
theorem tokens_sq : ∀ (s : Sq), s.ok = true → ∀ {p : List Int} {ts : List Tok}, Tokens p ts → Tokens (s.spell ++ p) (s.toks ++ ts)
  | .nil dollar, h, p, ts, ht => by
    cases dollar
    · exact ht
    · exact .plain (by decide) (by decide) ht
  | .cons a q s, h, p, ts, ht => by
    simp only [Sq.ok, Bool.and_eq_true] at h
    have := tokens_atom a h.1.1 (tokens_quant q h.1.2 (tokens_sq s h.2 ht))
    simpa [Sq.spell, Sq.toks] using this
theorem tokens_alts : ∀ (as : Alts), as.ok = true → ∀ {p : List Int} {ts : List Tok}, Tokens p ts → Tokens (as.spell ++ p) (as.toks ++ ts)
  | .last hat s, h, p, ts, ht => by
    simp only [Alts.ok, Bool.and_eq_true] at h
    have := tokens_hat hat (tokens_sq s h.1 ht)
    simpa [Alts.spell, Alts.toks] using this
  | .more hat s as, h, p, ts, ht => by
    simp only [Alts.ok, Bool.and_eq_true] at h
    have := tokens_hat hat (tokens_sq s h.1.1 (.plain (c := 124) (by decide) (by decide) (tokens_alts as h.2 ht)))
    simpa [Alts.spell, Alts.toks] using this
end

/-! ## brackets of the syntax -/

/-- The alternatives, as tokens and meaning. -/
def _root_.ERegex.Spec.Alts.parts : Alts → List (List Tok × Rx)
  | .last hat s => [(hatToks hat ++ s.toks, if hat then .seq .bos s.sem else s.sem)]
  | .more hat s as => (hatToks hat ++ s.toks, if hat then .seq .bos s.sem else s.sem) :: as.parts

theorem parts_ne (as : Alts) : as.parts ≠ [] := by cases as <;> simp [Alts.parts]

theorem toks_join : ∀ as : Alts, as.toks = joinWith 124 (as.parts.map Prod.fst)
  | .last hat s => by simp [Alts.parts, Alts.toks, joinWith]
  | .more hat s as => by
    have := toks_join as
    have hne := parts_ne as
    simp only [Alts.parts, Alts.toks, List.map_cons]
    cases hp : as.parts.map Prod.fst with
    | nil => simp at hp; exact absurd hp hne
    | cons x xs => rw [hp] at this; simp only [joinWith, this]

theorem sem_parts : ∀ as : Alts, as.sem = altOf (as.parts.map Prod.snd)
  | .last hat s => by simp [Alts.parts, Alts.sem, altOf]
  | .more hat s as => by
    have := sem_parts as
    have hne := parts_ne as
    simp only [Alts.parts, Alts.sem, List.map_cons]
    cases hp : as.parts.map Prod.snd with
    | nil => simp at hp; exact absurd hp hne
    | cons x xs => rw [hp] at this; simp only [altOf, this]

theorem topFree_single {t : Tok} (h : NoBracket t) (h' : t ≠ [124]) : TopFree 124 [t] := .tok h h' .nil

theorem topFree_pair {o c : List Int} {w : List Tok} (h : Bracket o c) (hw : WellNested w) : TopFree 124 (o :: (w ++ [c])) :=
  .pair h hw .nil

theorem topFree_mode (m : QMode) : TopFree 124 m.toks := by
  cases m
  · exact .nil
  · exact topFree_single (noBracket_chr (by decide)) (by decide)
  · exact topFree_single (noBracket_chr (by decide)) (by decide)

theorem topFree_brace {w : List Tok} (hw : ∀ t ∈ w, NoBracket t) (m : QMode) : TopFree 124 ([123] :: (w ++ [125] :: m.toks)) :=
  .pair .curly (wellNested_noBrackets hw) (topFree_mode m)

theorem topFree_quant (q : Quant) (h : q.ok = true) : TopFree 124 q.toks := by
  have comma : NoBracket [44] := noBracket_chr (by decide)
  cases q with
  | once => exact .nil
  | star m => exact .tok (noBracket_chr (by decide)) (by decide) (topFree_mode m)
  | plus m => exact .tok (noBracket_chr (by decide)) (by decide) (topFree_mode m)
  | opt m => exact .tok (noBracket_chr (by decide)) (by decide) (topFree_mode m)
  | exact n m =>
    have h1 := noBracket_digits (boundB_iff h).2.1
    exact topFree_brace (w := [n]) (by simpa using h1) m
  | atLeast n m =>
    have h1 := noBracket_digits (boundB_iff h).2.1
    exact topFree_brace (w := [n, [44]]) (by simp [h1, comma]) m
  | between n k m =>
    simp only [Quant.ok, Bool.and_eq_true] at h
    have h1 := noBracket_digits (boundB_iff h.1).2.1
    have h2 := noBracket_digits (boundB_iff h.2).2.1
    exact topFree_brace (w := [n, [44], k]) (by simp [h1, h2, comma]) m

theorem items_noBracket (items : List Item) (d : Bool) (h : items.all Item.ok = true) :
    ∀ t ∈ items.flatMap Item.toks ++ dashToks d, NoBracket t := by
  intro t ht
  rw [List.mem_append] at ht
  rcases ht with ht | ht
  · rw [List.mem_flatMap] at ht
    obtain ⟨i, hi, ht⟩ := ht
    have hi := List.all_eq_true.1 h i hi
    cases i with
    | chr c =>
      simp [Item.toks] at ht; subst ht
      simp [Item.ok, classB] at hi
      exact noBracket_chr (by simp; omega)
    | esc c => simp [Item.toks] at ht; subst ht; exact noBracket_esc c
    | rng a b =>
      simp [Item.toks] at ht
      simp [Item.ok, classB] at hi
      rcases ht with rfl | rfl | rfl
      · exact noBracket_chr (by simp; omega)
      · exact noBracket_chr (by decide)
      · exact noBracket_chr (by simp; omega)
  · cases d <;> simp [dashToks] at ht
    subst ht; exact noBracket_chr (by decide)

theorem topFree_hat (h : Bool) : TopFree 124 (hatToks h) := by
  cases h
  · exact .nil
  · exact topFree_single (noBracket_chr (by decide)) (by decide)

mutual
theorem topFree_atom : ∀ (a : Atom), a.ok = true → TopFree 124 a.toks
  | .chr c, h => by
    simp [Atom.ok, plainB] at h
    exact topFree_single (noBracket_chr (by simp; omega)) (by simp; omega)
  | .esc c, h => topFree_single (noBracket_esc c) (by simp)
  | .dot, h => topFree_single (noBracket_chr (by decide)) (by decide)
  | .hex a b, h => by
    simp [Atom.ok, digitB] at h
    exact .tok (noBracket_esc _) (by simp) (.tok (noBracket_chr (by simp; omega)) (by simp; omega)
      (topFree_single (noBracket_chr (by simp; omega)) (by simp; omega)))
  | .oct a b c, h => by
    simp [Atom.ok, octalB] at h
    exact .tok (noBracket_esc _) (by simp) (.tok (noBracket_chr (by simp; omega)) (by simp; omega)
      (topFree_single (noBracket_chr (by simp; omega)) (by simp; omega)))
  | .cls neg items dash, h => by
    simp only [Atom.ok, Bool.and_eq_true] at h
    refine topFree_pair .square (wellNested_append (topFree_wellNested (topFree_hat neg)) ?_)
    exact wellNested_noBrackets (items_noBracket items dash h.1)
  | .group capture as, h => by
    have h1 := topFree_alts as (by simpa [Atom.ok] using h)
    have h2 : WellNested as.toks := by
      rw [toks_join]; exact wellNested_join _ (by simpa using fun a b hab => h1 (a, b) hab)
    simp only [Atom.toks]
    rw [← List.append_assoc]
    refine topFree_pair .round (wellNested_append ?_ h2)
    cases capture
    · exact wellNested_noBrackets (by simp; exact ⟨noBracket_chr (by decide), noBracket_chr (by decide)⟩)
    · exact .nil
theorem topFree_sq : ∀ (s : Sq), s.ok = true → TopFree 124 s.toks
  | .nil dollar, h => by
    cases dollar
    · exact .nil
    · exact topFree_single (noBracket_chr (by decide)) (by decide)
  | .cons a q s, h => by
    simp only [Sq.ok, Bool.and_eq_true] at h
    exact topFree_append (topFree_atom a h.1.1) (topFree_append (topFree_quant q h.1.2) (topFree_sq s h.2))
theorem topFree_alts : ∀ (as : Alts), as.ok = true → ∀ x ∈ as.parts, TopFree 124 x.1
  | .last hat s, h => by
    simp only [Alts.ok, Bool.and_eq_true] at h
    simp only [Alts.parts, List.mem_singleton]
    rintro x rfl
    exact topFree_append (topFree_hat hat) (topFree_sq s h.1)
  | .more hat s as, h => by
    simp only [Alts.ok, Bool.and_eq_true] at h
    simp only [Alts.parts, List.mem_cons]
    rintro x (rfl | hx)
    · exact topFree_append (topFree_hat hat) (topFree_sq s h.1.1)
    · exact topFree_alts as h.2 x hx
end

/-! ## the tree of a pattern -/

/-- `tree_builder_helper` with enough fuel. -/
def H (last : Option Node) (ts : List Tok) (gi : Nat) : Option Node := helper (ts.length + 1) last ts gi

theorem helper_H {f : Nat} {last : Option Node} {ts : List Tok} {gi : Nat} (h : ts.length < f) : helper f last ts gi = H last ts gi :=
  helper_fuel ts.length _ _ last ts gi (Nat.le_refl _) h (by omega)

theorem H_node {last : Option Node} {ts : List Tok} {gi : Nat} {n : Node} {b : Bool} {rest : List Tok}
    (h : classify last.isNone ts = .node n b rest) :
    H last ts gi = (H (some n) rest (if b then nextIdx n else gi)).bind (addChild last) := by
  have hs := classify_small last.isNone ts
  rw [h] at hs
  rw [H, helper_node h, helper_H hs]

theorem H_quant {m : Node} {ts : List Tok} {gi : Nat} {q : Node → Option Node} {rest : List Tok}
    (h : classify false ts = .quant q rest) : H (some m) ts gi = (q m).bind (fun n => H (some n) rest gi) := by
  have hs := classify_small false ts
  rw [h] at hs
  rw [H, helper_quant h]
  congr 1; funext n; exact helper_H hs

theorem H_capture {last : Option Node} {ts : List Tok} {gi : Nat} {c rest : List Tok}
    (h : classify last.isNone ts = .capture c rest) :
    H last ts gi = (buildAll (fun b => H none b (gi + 1)) (splitT 124 c)).bind (fun bs =>
        (H (some (.group (.alt bs) gi [])) rest (gi + 1)).bind (addChild last)) := by
  have hs := classify_small last.isNone ts
  rw [h] at hs
  rw [H, helper, h]
  simp only
  rw [buildAll_congr (h2 := fun b => H none b (gi + 1))]
  · congr 1; funext bs; rw [helper_H hs.2]
  · intro b hb
    have := splitT_le hb
    exact helper_H (by have := hs.1; omega)

theorem H_noncapture {last : Option Node} {ts : List Tok} {gi : Nat} {c rest : List Tok}
    (h : classify last.isNone ts = .noncapture c rest) :
    H last ts gi = (buildAll (fun b => H none b gi) (splitT 124 c)).bind (fun bs =>
        (H (some (.simple (.alt bs) [])) rest (nextIdxs bs)).bind (addChild last)) := by
  have hs := classify_small last.isNone ts
  rw [h] at hs
  rw [H, helper, h]
  simp only
  rw [buildAll_congr (h2 := fun b => H none b gi)]
  · congr 1; funext bs; rw [helper_H hs.2]
  · intro b hb
    have := splitT_le hb
    exact helper_H (by have := hs.1; omega)

/-- `n` stands for `r` and a child can be appended to it. -/
def Fresh (n : Node) (r : Rx) : Prop :=
  Same (toRx n) r ∧ ∀ c, ∃ n', addChild (some n) c = some n' ∧ Same (toRx n') (.seq r (toRx c))

theorem same_cont_one (c : Node) : Same (contOf (toRxs [c])) (toRx c) := by
  intro q i j; simp [toRxs, contOf, altOf]

theorem fresh_simple {m : Node} {r : Rx} (h : Same (toRx m) r) : Fresh (.simple m []) r :=
  ⟨(same_seq_eps _).trans h, fun c => ⟨.simple m [c], rfl, same_seq h (same_cont_one c)⟩⟩

theorem fresh_group {m : Node} {r : Rx} (i : Nat) (h : Same (toRx m) r) : Fresh (.group m i []) r :=
  ⟨(same_seq_eps _).trans h, fun c => ⟨.group m i [c], rfl, same_seq h (same_cont_one c)⟩⟩

theorem fresh_repeated {m : Node} {r : Rx} (n : Nat) (h : Same (toRx m) r) : Fresh (.repeated m n []) (.rep r n (some n)) :=
  ⟨(same_seq_eps _).trans (same_rep h _ _), fun c => ⟨.repeated m n [c], rfl, same_seq (same_rep h _ _) (same_cont_one c)⟩⟩

theorem fresh_policy (p : Policy) {m : Node} {r : Rx} (lo hi : Nat) (h : Same (toRx m) r) :
    Fresh (p.node m lo hi) (.rep r lo (boundOf hi)) := by
  cases p
  · exact ⟨(same_seq_eps _).trans (same_rep h _ _), fun c => ⟨.greedy m lo hi [c], rfl, same_seq (same_rep h _ _) (same_cont_one c)⟩⟩
  · exact ⟨(same_seq_eps _).trans (same_rep h _ _), fun c => ⟨.lazy m lo hi [c], rfl, same_seq (same_rep h _ _) (same_cont_one c)⟩⟩
  · exact ⟨(same_seq_eps _).trans (same_rep h _ _), fun c => ⟨.possessive m lo hi [c], rfl, same_seq (same_rep h _ _) (same_cont_one c)⟩⟩

theorem same_classOf {m : Node} {p : Int → Bool} (h : ClassOf m p) : Same (toRx m) (.cls p) := by
  intro q i j; rw [h q i j]; simp only [Den]

/-! ### one atom -/

theorem classify_plain (b : Bool) (c : Int) (h : plainB c = true) (tl : List Tok) :
    classify b ([c] :: tl) = .node (.simple (.exact [c] [c]) []) false tl := by
  simp [plainB] at h
  rw [classify]
  · have h1 : classify.octalHead [c] tl = none := by unfold classify.octalHead; split <;> simp_all
    have h2 : classify.hexHead [c] tl = none := by unfold classify.hexHead; split <;> simp_all
    have h3 : terminalOf [c] = some (.exact [c] [c]) := by unfold terminalOf; split <;> simp_all
    rw [if_neg (by simp; omega), h1, h2, h3]
  all_goals simp
  all_goals omega

theorem classify_dot (b : Bool) (tl : List Tok) : classify b ([46] :: tl) = .node (.simple .any []) false tl := by
  rw [classify]
  · have h1 : classify.octalHead [46] tl = none := by unfold classify.octalHead; split <;> simp_all
    have h2 : classify.hexHead [46] tl = none := by unfold classify.hexHead; split <;> simp_all
    rw [if_neg (by simp), h1, h2]; rfl
  all_goals simp

theorem classify_esc (b : Bool) (c : Int) (h : escB c = true) (tl : List Tok) {t : Node} (ht : terminalOf [92, c] = some t) :
    classify b ([92, c] :: tl) = .node (.simple t []) false tl := by
  simp [escB] at h
  rw [classify]
  · have h1 : classify.octalHead [92, c] tl = none := by
      unfold classify.octalHead
      split
      · rw [if_neg]; simp [isOctal]; simp_all; omega
      · rfl
    have h2 : classify.hexHead [92, c] tl = none := by unfold classify.hexHead; split <;> simp_all
    rw [if_neg (by simp), h1, h2, ht]
  all_goals simp
  all_goals omega

theorem classify_hex (b : Bool) (x y : Int) (hx : digitB x = true) (hy : digitB y = true) (tl : List Tok) :
    classify b ([92, 120] :: [x] :: [y] :: tl) = .node (.simple (.exact [hexPair x y] [hexPair x y]) []) false tl := by
  simp [digitB] at hx hy
  rw [classify_escape _ _ _ (by simp; omega)]
  have h1 : classify.octalHead [92, 120] ([x] :: [y] :: tl) = none := by simp [classify.octalHead, isOctal]
  have h2 : classify.hexHead [92, 120] ([x] :: [y] :: tl) = some ([hexPair x y], tl) := by
    simp only [classify.hexHead]; rw [if_pos (by simp [isHex]; omega)]
  rw [h1, h2]

theorem classify_oct (b : Bool) (x y z : Int) (hx : octalB x = true) (hy : octalB y = true) (hz : octalB z = true) (tl : List Tok) :
    classify b ([92, x] :: [y] :: [z] :: tl) = .node (.simple (.exact [octTriple x y z] [octTriple x y z]) []) false tl := by
  simp [octalB] at hx hy hz
  rw [classify_escape _ _ _ (by simp; omega)]
  have h2 : classify.octalHead [92, x] ([y] :: [z] :: tl) = some ([octTriple x y z], tl) := by
    simp only [classify.octalHead]; rw [if_pos (by simp [isOctal]; omega)]
  rw [h2]

theorem hexPair_byte {x y : Int} (hx : digitB x = true) (hy : digitB y = true) : hexPair x y = byte (16 * (x - 48) + (y - 48)) := by
  simp [digitB] at hx hy
  unfold hexPair
  rw [nat_or_shift 4 _ _ (by omega)]
  show byte _ = _
  congr 1
  omega

theorem octTriple_byte {x y z : Int} (hx : octalB x = true) (hy : octalB y = true) (hz : octalB z = true) :
    octTriple x y z = byte (64 * (x - 48) + 8 * (y - 48) + (z - 48)) := by
  simp [octalB] at hx hy hz
  unfold octTriple
  rw [Nat.or_assoc, nat_or_shift 3 (y - 48).toNat (z - 48).toNat (by omega), nat_or_shift 6 _ _ (by omega)]
  show byte _ = _
  congr 1
  omega

/-- `helper` on an atom: a node `n` is started, the rest is its continuation. -/
def Starts (ts : List Tok) (r : Rx) : Prop := ∀ gi rest, ∃ n gi', Fresh n r ∧
  ∀ last, H last (ts ++ rest) gi = (H (some n) rest gi').bind (addChild last)

theorem starts_node {ts : List Tok} {r : Rx} {n : Node} {b : Bool} (hn : Fresh n r)
    (h : ∀ c rest, classify c (ts ++ rest) = .node n b rest) : Starts ts r :=
  fun gi rest => ⟨n, if b then nextIdx n else gi, hn, fun last => H_node (h _ rest)⟩

/-- `helper` on one alternative. -/
def Parses (ts : List Tok) (r : Rx) : Prop := ∀ gi, ∃ t, H none ts gi = some t ∧ Same (toRx t) r

theorem buildAll_parts (gi : Nat) : ∀ (ps : List (List Tok × Rx)), (∀ x ∈ ps, Parses x.1 x.2) →
    ∃ ns, buildAll (fun b => H none b gi) (ps.map Prod.fst) = some ns ∧ Sames (toRxs ns) (ps.map Prod.snd)
  | [], _ => ⟨[], by simp [buildAll], by simp [toRxs, Sames]⟩
  | x :: ps, h => by
    obtain ⟨t, h1, h2⟩ := h x (by simp) gi
    obtain ⟨ns, h3, h4⟩ := buildAll_parts gi ps (fun y hy => h y (by simp [hy]))
    exact ⟨t :: ns, by simp [buildAll, h1, h3], by simp only [toRxs, List.map_cons, Sames]; exact ⟨h2, h4⟩⟩

theorem topBranches_parts {f : Nat} : ∀ (ps : List (List Tok × Rx)) (gi : Nat), (∀ x ∈ ps, Parses x.1 x.2) → (∀ x ∈ ps, x.1.length < f) →
    ∃ ns, topBranches f (ps.map Prod.fst) gi = some ns ∧ Sames (toRxs ns) (ps.map Prod.snd)
  | [], _, _, _ => ⟨[], by simp [topBranches], by simp [toRxs, Sames]⟩
  | x :: ps, gi, h, hf => by
    obtain ⟨t, h1, h2⟩ := h x (by simp) gi
    obtain ⟨ns, h3, h4⟩ := topBranches_parts ps (nextIdx t) (fun y hy => h y (by simp [hy])) (fun y hy => hf y (by simp [hy]))
    refine ⟨t :: ns, ?_, by simp only [toRxs, List.map_cons, Sames]; exact ⟨h2, h4⟩⟩
    simp only [List.map_cons, topBranches]
    rw [helper_H (hf x (by simp)), h1]
    simp [h3]

theorem same_alt_parts {ns : List Node} {ps : List (List Tok × Rx)} (hne : ps ≠ []) (h : Sames (toRxs ns) (ps.map Prod.snd)) :
    Same (toRx (.alt ns)) (altOf (ps.map Prod.snd)) := by
  simp only [toRx]
  have := same_altOf _ _ h
  cases ns with
  | nil =>
    cases ps with
    | nil => exact absurd rfl hne
    | cons => simp [toRxs, Sames] at h
  | cons n ns => simpa [toRxs, contOf] using this

theorem splitT_parts (ps : List (List Tok × Rx)) (hne : ps ≠ []) (h : ∀ x ∈ ps, TopFree 124 x.1) :
    splitT 124 (joinWith 124 (ps.map Prod.fst)) = ps.map Prod.fst := by
  have hbar : NoBracket [124] := by intro o c hb; cases hb <;> decide
  have := splitAux_pieces 124 hbar (ps.map Prod.fst) [] (by simpa using hne) (by simpa using fun a b hab => h (a, b) hab)
  simpa [splitT] using this

theorem Sq.head_quant (s : Sq) (h : s.ok = true) : ∀ x tl, s.toks = x :: tl → x ≠ [63] ∧ x ≠ [43] := by
  intro x tl e
  cases s with
  | nil d => cases d <;> simp [Sq.toks] at e; rw [← e.1]; decide
  | cons a q s =>
    simp only [Sq.ok, Bool.and_eq_true] at h
    have ha := h.1.1
    cases a <;> simp [Sq.toks, Atom.toks] at e <;> obtain ⟨e, -⟩ := e <;> subst e <;> simp
    simp [Atom.ok, plainB] at ha
    omega

theorem Alts.head_quant (as : Alts) (h : as.ok = true) : ∀ x tl, as.toks = x :: tl → x ≠ [63] ∧ x ≠ [43] := by
  intro x tl e
  have key : ∀ (hat : Bool) (s : Sq) (r : List Tok), s.ok = true → (hat || !s.empty) = true → hatToks hat ++ s.toks ++ r = x :: tl →
      x ≠ [63] ∧ x ≠ [43] := by
    intro hat s r hs he e
    cases hat with
    | true => simp [hatToks] at e; rw [← e.1]; decide
    | false =>
      cases hh : s.toks with
      | nil =>
        cases s with
        | nil d => cases d <;> simp [Sq.empty, Sq.toks] at he hh
        | cons a q s => cases a <;> simp [Sq.toks, Atom.toks] at hh
      | cons y ys =>
        rw [hh] at e; simp [hatToks] at e
        rw [← e.1]; exact Sq.head_quant s hs y ys hh
  cases as with
  | last hat s =>
    simp only [Alts.ok, Bool.and_eq_true] at h
    exact key hat s [] h.1 h.2 (by simpa [Alts.toks] using e)
  | more hat s as =>
    simp only [Alts.ok, Bool.and_eq_true] at h
    exact key hat s ([124] :: as.toks) h.1.1 h.1.2 (by simpa [Alts.toks] using e)

theorem policyOf_none {rest : List Tok} (h : ∀ x tl, rest = x :: tl → x ≠ [63] ∧ x ≠ [43]) : policyOf rest = (.greedy, rest) := by
  unfold policyOf
  split
  · exact absurd rfl (h _ _ rfl).1
  · exact absurd rfl (h _ _ rfl).2
  · rfl

/-- Policy of a suffix. -/
def polOf : QMode → Policy
  | .greedy => .greedy
  | .lazy => .lazy
  | .possessive => .possessive

theorem policyOf_mode (m : QMode) {rest : List Tok} (h : ∀ x tl, rest = x :: tl → x ≠ [63] ∧ x ≠ [43]) :
    policyOf (m.toks ++ rest) = (polOf m, rest) := by
  cases m
  · exact policyOf_none h
  · rfl
  · rfl

theorem pack_digits {n : List Int} (h : boundB n = true) : packStringToNumber n = some (decimal n).toNat ∧ (decimal n).toNat ≠ umax := by
  obtain ⟨h1, h2, h3⟩ := boundB_iff h
  have h4 : 0 ≤ decimal n := by
    have : ∀ (l : List Int) (a : Int), l.all digitB = true → 0 ≤ a → 0 ≤ l.foldl (fun acc c => 10 * acc + (c - 48)) a := by
      intro l
      induction l with
      | nil => intro a _ ha; simpa using ha
      | cons c l ih =>
        intro a hl ha
        simp only [List.all_cons, Bool.and_eq_true] at hl
        have := hl.1; simp [digitB] at this
        exact ih _ hl.2 (show (0 : Int) ≤ 10 * a + (c - 48) by omega)
    exact this n 0 h2 (by omega)
  have h5 := toNumberAux_eq n
  rw [Int.emod_eq_of_lt h4 (by omega)] at h5
  refine ⟨?_, ?_⟩
  · unfold packStringToNumber
    rw [if_neg h1]
    congr 1; omega
  · unfold umax; omega

theorem extract_digits {w : List Tok} (hw : ∀ t ∈ w, NoBracket t) (r : List Tok) : extractT 123 125 (w ++ [125] :: r) = some (w, r) :=
  extract_wellNested .curly (wellNested_noBrackets hw) r

/-- A quantifier is applied to the node before it. -/
theorem quant_ok (q : Quant) (hq : q.ok = true) {rest : List Tok} (hr : ∀ x tl, rest = x :: tl → x ≠ [63] ∧ x ≠ [43]) (gi : Nat)
    {n : Node} {r : Rx} (hn : Fresh n r) : ∃ n', Fresh n' (q.sem r) ∧ H (some n) (q.toks ++ rest) gi = H (some n') rest gi := by
  have comma : NoBracket [44] := noBracket_chr (by decide)
  cases q with
  | once => exact ⟨n, hn, rfl⟩
  | star m =>
    refine ⟨(polOf m).node n 0 umax, by simpa [Quant.sem, boundOf] using fresh_policy (polOf m) 0 umax hn.1, ?_⟩
    simp only [Quant.toks, List.cons_append]
    rw [H_quant (classify_star _ _), policyOf_mode m hr]; rfl
  | plus m =>
    refine ⟨(polOf m).node n 1 umax, by simpa [Quant.sem, boundOf] using fresh_policy (polOf m) 1 umax hn.1, ?_⟩
    simp only [Quant.toks, List.cons_append]
    rw [H_quant (classify_plus _ _), policyOf_mode m hr]; rfl
  | opt m =>
    refine ⟨(polOf m).node n 0 1, by simpa [Quant.sem, boundOf, umax] using fresh_policy (polOf m) 0 1 hn.1, ?_⟩
    simp only [Quant.toks, List.cons_append]
    rw [H_quant (classify_opt _ _), policyOf_mode m hr]; rfl
  | exact k m =>
    have hb := boundB_iff hq
    have hp := pack_digits hq
    have h1 := noBracket_digits hb.2.1
    refine ⟨.repeated n (decimal k).toNat [], fresh_repeated _ hn.1, ?_⟩
    have he := extract_digits (w := [k]) (by simpa using h1) (m.toks ++ rest)
    simp only [Quant.toks, List.cons_append]
    rw [H_quant (q := fun x => quantifiedNode x [k] (polOf m)) (rest := rest)
      (by rw [classify_brace, show k :: [125] :: (m.toks ++ rest) = [k] ++ [125] :: (m.toks ++ rest) from rfl, he]
          simp only [policyOf_mode m hr])]
    simp [quantifiedNode, hp.1]
  | atLeast k m =>
    have hb := boundB_iff hq
    have hp := pack_digits hq
    have h1 := noBracket_digits hb.2.1
    refine ⟨(polOf m).node n (decimal k).toNat umax, by simpa [Quant.sem, boundOf] using fresh_policy (polOf m) (decimal k).toNat umax hn.1, ?_⟩
    have he := extract_digits (w := [k, [44]]) (by simp [h1, comma]) (m.toks ++ rest)
    simp only [Quant.toks, List.cons_append]
    rw [H_quant (q := fun x => quantifiedNode x [k, [44]] (polOf m)) (rest := rest)
      (by rw [classify_brace, show k :: [44] :: [125] :: (m.toks ++ rest) = [k, [44]] ++ [125] :: (m.toks ++ rest) from rfl, he]
          simp only [policyOf_mode m hr])]
    simp [quantifiedNode, hp.1]
  | between k l m =>
    simp only [Quant.ok, Bool.and_eq_true] at hq
    have hb := boundB_iff hq.1
    have hp := pack_digits hq.1
    have hl := pack_digits hq.2
    have h1 := noBracket_digits hb.2.1
    have h2 := noBracket_digits (boundB_iff hq.2).2.1
    refine ⟨(polOf m).node n (decimal k).toNat (decimal l).toNat,
      by simpa [Quant.sem, boundOf, hl.2] using fresh_policy (polOf m) (decimal k).toNat (decimal l).toNat hn.1, ?_⟩
    have he := extract_digits (w := [k, [44], l]) (by simp [h1, h2, comma]) (m.toks ++ rest)
    simp only [Quant.toks, List.cons_append]
    rw [H_quant (q := fun x => quantifiedNode x [k, [44], l] (polOf m)) (rest := rest)
      (by rw [classify_brace, show k :: [44] :: l :: [125] :: (m.toks ++ rest) = [k, [44], l] ++ [125] :: (m.toks ++ rest) from rfl, he]
          simp only [policyOf_mode m hr])]
    simp [quantifiedNode, hp.1, hl.1]

theorem H_nil (last : Option Node) (gi : Nat) : H last [] gi = last := helper_nil _ _ _

theorem H_dollar (last : Option Node) (gi : Nat) : H last [[36]] gi = addChild last (.simple .eol []) := by
  simp [H, helper, classify_dollar]

theorem H_hat (ts : List Tok) (gi : Nat) : H none ([94] :: ts) gi = H (some (.simple .bos [])) ts gi := by
  simp only [H, List.length_cons]
  rw [helper]
  simp only [Option.isNone_none]
  rw [show classify true ([94] :: ts) = .start ts from rfl]

theorem same_assoc (a b c : Rx) : Same (.seq (.seq a b) c) (.seq a (.seq b c)) := by
  intro q i j
  simp only [Den]
  constructor
  · rintro ⟨k, ⟨l, h1, h2⟩, h3⟩; exact ⟨l, h1, k, h2, h3⟩
  · rintro ⟨l, h1, k, h2, h3⟩; exact ⟨k, ⟨l, h1, h2⟩, h3⟩

mutual
theorem atom_ok : ∀ (a : Atom), a.ok = true → Starts a.toks a.sem
  | .chr c, h => starts_node (fresh_simple (same_classOf (classOf_exact c _))) (fun b rest => classify_plain b c h rest)
  | .esc c, h => by
    obtain ⟨t, ht, hc⟩ := terminalOf_esc c h
    exact starts_node (fresh_simple (same_classOf hc)) (fun b rest => classify_esc b c h rest ht)
  | .dot, h => starts_node (fresh_simple (same_classOf (classOf_cls rfl))) (fun b rest => classify_dot b rest)
  | .hex a b, h => by
    simp only [Atom.ok, Bool.and_eq_true] at h
    have := classOf_exact (hexPair a b) [hexPair a b]
    rw [hexPair_byte h.1 h.2] at this
    refine starts_node (b := false) (fresh_simple (same_classOf this)) (fun c rest => ?_)
    have := classify_hex c a b h.1 h.2 rest
    rwa [hexPair_byte h.1 h.2] at this
  | .oct a b c, h => by
    simp only [Atom.ok, Bool.and_eq_true] at h
    have := classOf_exact (octTriple a b c) [octTriple a b c]
    rw [octTriple_byte h.1.1 h.1.2 h.2] at this
    refine starts_node (b := false) (fresh_simple (same_classOf this)) (fun d rest => ?_)
    have := classify_oct d a b c h.1.1 h.1.2 h.2 rest
    rwa [octTriple_byte h.1.1 h.1.2 h.2] at this
  | .cls neg items dash, h => by
    simp only [Atom.ok, Bool.and_eq_true] at h
    obtain ⟨n, h1, h2⟩ := classNode_ok items dash h.1 h.2
    have hx := fun rest => extract_wellNested .square (wellNested_noBrackets (items_noBracket items dash h.1)) rest
    cases neg with
    | false =>
      have hc : ClassOf n (fun x => listed items dash x != false) := by simpa using h2
      refine starts_node (fresh_simple (same_classOf hc)) (fun c rest => (?_ : _ = Step.node _ true _))
      simp only [Atom.toks, hatToks, List.cons_append]
      rw [classify_class, show (((if false = true then [[94]] else []) ++ (items.flatMap Item.toks ++ dashToks dash) ++ [[93]]) ++ rest) =
        (items.flatMap Item.toks ++ dashToks dash) ++ [93] :: rest by simp, hx]
      · simp only [h1]
      · intro tl e
        cases items with
        | nil => cases dash <;> simp [dashToks] at e
        | cons i items =>
          simp only [List.all_cons, Bool.and_eq_true] at h
          have := h.1.1
          cases i <;> simp [Item.toks, Item.ok, classB] at e this
          · omega
          · omega
    | true =>
      have hc : ClassOf (.negated n) (fun x => listed items dash x != true) := by
        have := classOf_negated h2
        simpa using this
      refine starts_node (fresh_simple (same_classOf hc)) (fun c rest => (?_ : _ = Step.node _ true _))
      simp only [Atom.toks, hatToks, List.cons_append]
      rw [show ((if True then [[94]] else []) ++ (items.flatMap Item.toks ++ dashToks dash) ++ [[93]]) ++ rest =
        [94] :: ((items.flatMap Item.toks ++ dashToks dash) ++ [93] :: rest) by simp, classify_negclass, hx]
      simp only [h1]
  | .group capture as, h => by
    have h0 : as.ok = true := by simpa [Atom.ok] using h
    have hp := alts_ok as h0
    have ht := topFree_alts as h0
    have hw : WellNested as.toks := by
      rw [toks_join]; exact wellNested_join _ (by simpa using fun a b hab => ht (a, b) hab)
    have hs : splitT 124 as.toks = as.parts.map Prod.fst := by rw [toks_join]; exact splitT_parts _ (parts_ne as) ht
    intro gi rest
    have hx := extract_wellNested .round hw rest
    cases capture with
    | true =>
      obtain ⟨ns, h1, h2⟩ := buildAll_parts (gi + 1) as.parts hp
      refine ⟨.group (.alt ns) gi [], gi + 1, fresh_group gi ?_, fun last => ?_⟩
      · rw [Atom.sem, sem_parts]; exact same_alt_parts (parts_ne as) h2
      · rw [H_capture (c := as.toks) (rest := rest)]
        · rw [hs, h1]; rfl
        · simp only [Atom.toks, List.cons_append]
          rw [show ((if True then [] else [[63], [58]]) ++ (as.toks ++ [[41]])) ++ rest = as.toks ++ [41] :: rest by simp,
            classify_capture, hx]
          intro tl e
          cases hh : as.toks with
          | nil => rw [hh] at e; simp at e
          | cons x xs =>
            rw [hh] at e; simp at e
            exact (Alts.head_quant as h0 x xs hh).1 e.1
    | false =>
      obtain ⟨ns, h1, h2⟩ := buildAll_parts gi as.parts hp
      refine ⟨.simple (.alt ns) [], nextIdxs ns, fresh_simple ?_, fun last => ?_⟩
      · rw [Atom.sem, sem_parts]; exact same_alt_parts (parts_ne as) h2
      · rw [H_noncapture (c := as.toks) (rest := rest)]
        · rw [hs, h1]; rfl
        · simp only [Atom.toks, List.cons_append]
          rw [show ((if false = true then [] else [[63], [58]]) ++ (as.toks ++ [[41]])) ++ rest = [63] :: [58] :: (as.toks ++ [41] :: rest) by simp,
            classify_noncapture, hx]
theorem sq_some : ∀ (s : Sq), s.ok = true → ∀ (n : Node) (r : Rx) (gi : Nat), Fresh n r →
    ∃ t, H (some n) s.toks gi = some t ∧ Same (toRx t) (.seq r s.sem)
  | .nil dollar, h, n, r, gi, hn => by
    cases dollar with
    | false =>
      refine ⟨n, H_nil _ _, ?_⟩
      exact hn.1.trans (fun q i j => (same_seq_eps r q i j).symm)
    | true =>
      obtain ⟨n', h1, h2⟩ := hn.2 (.simple .eol [])
      refine ⟨n', by rw [← h1]; exact H_dollar _ _, h2.trans (same_seq (Same.refl _) ?_)⟩
      exact same_seq_eps _
  | .cons a q s, h, n, r, gi, hn => by
    simp only [Sq.ok, Bool.and_eq_true] at h
    obtain ⟨m, gi', hm, ha⟩ := atom_ok a h.1.1 gi (q.toks ++ s.toks)
    obtain ⟨m', hm', hq⟩ := quant_ok q h.1.2 (Sq.head_quant s h.2) gi' hm
    obtain ⟨t, h1, h2⟩ := sq_some s h.2 m' _ gi' hm'
    obtain ⟨n', h3, h4⟩ := hn.2 t
    refine ⟨n', ?_, h4.trans (same_seq (Same.refl _) h2)⟩
    simp only [Sq.toks]
    rw [ha, hq, h1]; exact h3
theorem sq_none : ∀ (s : Sq), s.ok = true → s.empty = false → Parses s.toks s.sem
  | .nil dollar, h, he, gi => by
    cases dollar with
    | false => simp [Sq.empty] at he
    | true => exact ⟨.simple .eol [], by rw [show (Sq.nil true).toks = [[36]] from rfl, H_dollar]; rfl, same_seq_eps _⟩
  | .cons a q s, h, he, gi => by
    simp only [Sq.ok, Bool.and_eq_true] at h
    obtain ⟨m, gi', hm, ha⟩ := atom_ok a h.1.1 gi (q.toks ++ s.toks)
    obtain ⟨m', hm', hq⟩ := quant_ok q h.1.2 (Sq.head_quant s h.2) gi' hm
    obtain ⟨t, h1, h2⟩ := sq_some s h.2 m' _ gi' hm'
    refine ⟨t, ?_, h2⟩
    simp only [Sq.toks]
    rw [ha, hq, h1]; rfl
theorem piece_ok : ∀ (hat : Bool) (s : Sq), s.ok = true → (hat || !s.empty) = true →
    Parses (hatToks hat ++ s.toks) (if hat then .seq .bos s.sem else s.sem)
  | true, s, h, _, gi => by
    obtain ⟨t, h1, h2⟩ := sq_some s h (.simple .bos []) .bos gi (fresh_simple (Same.refl _))
    exact ⟨t, by rw [show hatToks true ++ s.toks = [94] :: s.toks from rfl, H_hat]; exact h1, h2⟩
  | false, s, h, he, gi => sq_none s h (by simpa using he) gi
theorem alts_ok : ∀ (as : Alts), as.ok = true → ∀ x ∈ as.parts, Parses x.1 x.2
  | .last hat s, h => by
    simp only [Alts.ok, Bool.and_eq_true] at h
    simp only [Alts.parts, List.mem_singleton]
    rintro x rfl
    exact piece_ok hat s h.1 h.2
  | .more hat s as, h => by
    simp only [Alts.ok, Bool.and_eq_true] at h
    simp only [Alts.parts, List.mem_cons]
    rintro x (rfl | hx)
    · exact piece_ok hat s h.1.1 h.1.2
    · exact alts_ok as h.2 x hx
end

theorem length_join_ge (ps : List (List Tok)) : ∀ p ∈ ps, p.length ≤ (joinWith 124 ps).length := by
  induction ps with
  | nil => simp
  | cons a ps ih =>
    intro p hp
    cases ps with
    | nil => simp at hp; subst hp; simp [joinWith]
    | cons b ps =>
      simp only [joinWith, List.length_append, List.length_cons]
      rcases List.mem_cons.1 hp with rfl | hp
      · omega
      · have := ih p hp; omega

theorem build_syntax (as : Alts) (h : as.ok = true) : ∃ t, build as.spell = some t ∧ Same (toRx t) as.sem := by
  have ht : tokenize as.spell = some as.toks := (tokenize_iff _ _).2 (by simpa using tokens_alts as h .nil)
  have hf := topFree_alts as h
  have hs : splitT 124 as.toks = as.parts.map Prod.fst := by rw [toks_join]; exact splitT_parts _ (parts_ne as) hf
  obtain ⟨ns, h1, h2⟩ := topBranches_parts (f := as.toks.length + 1) as.parts 0 (alts_ok as h) (fun x hx => by
    have := length_join_ge (as.parts.map Prod.fst) x.1 (List.mem_map_of_mem hx)
    rw [← toks_join] at this; omega)
  refine ⟨.alt ns, ?_, ?_⟩
  · simp only [build, ht, hs, h1]; rfl
  · rw [sem_parts]; exact same_alt_parts (parts_ne as) h2

end ERegex

import Verif.Proofs.Malformed
import Verif.Proofs.Optimize
import Verif.Model.Result
/-!
# Patterns with a well-formed outline compile
-/
set_option autoImplicit false
namespace ERegex
open Spec

/-! ## the builder gets through -/

theorem classify_generic {b : Bool} {x : Tok} {tl : List Tok} (h1 : x ≠ [40]) (h2 : x ≠ [91]) (h3 : x ≠ [123]) (h4 : x ≠ [42]) (h5 : x ≠ [43])
    (h6 : x ≠ [63]) (h7 : ¬ (x = [36] ∧ tl = [])) (h8 : x ≠ [92, 120]) (h9 : x ≠ [92, 111]) (ht : terminalOf x ≠ none) :
    (classify b (x :: tl) = .start tl) ∨ (∃ n r, classify.octalHead x tl = some (n, r) ∧ classify b (x :: tl) = .node (.simple (.exact n n) []) false r) ∨
    (∃ t, classify b (x :: tl) = .node (.simple t []) false tl) := by
  have e : classify b (x :: tl) = if x = [94] ∧ b = true then .start tl else
      match classify.octalHead x tl with
      | some (v, r) => .node (.simple (.exact v v) []) false r
      | none =>
      match classify.hexHead x tl with
      | some (v, r) => .node (.simple (.exact v v) []) false r
      | none =>
      match terminalOf x with
      | none => .fail
      | some t => .node (.simple t []) false tl := by
    unfold classify
    split <;> first | (exfalso; simp_all; done) | skip
    rename_i heq
    simp only [List.cons.injEq] at heq
    obtain ⟨rfl, rfl⟩ := heq
    rfl
  rw [e]
  by_cases h0 : x = [94] ∧ b = true
  · left; rw [if_pos h0]
  · rw [if_neg h0]
    cases ho : classify.octalHead x tl with
    | some vr => right; left; exact ⟨vr.1, vr.2, rfl, rfl⟩
    | none =>
      right; right
      have hh : classify.hexHead x tl = none := by
        unfold classify.hexHead; split <;> simp_all
      simp only [hh]
      cases hx : terminalOf x with
      | none => exact absurd hx ht
      | some t => exact ⟨t, by simp⟩

theorem items_unpolicy {r : List Tok} (h : Passes true r) : Passes true (policyOf r).2 := by
  unfold policyOf
  split
  · cases h with
    | tok _ _ _ _ _ h => exact h
  · cases h with
    | tok _ _ _ _ _ h => exact h
  · exact h

theorem policy_mem {r : List Tok} {x : Tok} (h : x ∈ (policyOf r).2) : x ∈ r := by
  unfold policyOf at h
  split at h <;> simp_all

theorem octalHead_rest {x : Tok} {tl : List Tok} {v r} (e : classify.octalHead x tl = some (v, r)) (hi : Passes true tl) :
    Passes true r ∧ ∀ y ∈ r, y ∈ tl := by
  unfold classify.octalHead at e
  split at e
  · split at e
    · rename_i a b c tl hc
      simp only [Option.some.injEq, Prod.mk.injEq] at e
      simp only [Bool.and_eq_true] at hc
      obtain ⟨⟨ha, hb⟩, hc⟩ := hc
      have hb := isOctal_plain hb
      have hc := isOctal_plain hc
      obtain ⟨_, rfl⟩ := e
      refine ⟨?_, by intro y hy; simp [hy]⟩
      cases hi with
      | bound => omega
      | cls => omega
      | ncls => omega
      | group => omega
      | quiet => omega
      | tok _ _ _ _ _ hi =>
        cases hi with
        | bound => omega
        | cls => omega
        | ncls => omega
        | group => omega
        | quiet => omega
        | tok _ _ _ _ _ hi => exact hi
    · simp at e
  · simp at e

theorem extractT_mem {op cl : Int} (hne : op ≠ cl) {ts c r : List Tok} (h : extractT op cl ts = some (c, r)) :
    (∀ x ∈ c, x ∈ ts) ∧ (∀ x ∈ r, x ∈ ts) := by
  rcases extractT_only hne h with ⟨rfl, _⟩ | ⟨rfl, rfl⟩
  · exact ⟨fun x hx => by simp [hx], fun x hx => by simp [hx]⟩
  · simp

theorem join_mem : ∀ {ps : List (List Tok)} {p : List Tok} {x : Tok}, p ∈ ps → x ∈ p → x ∈ joinWith 124 ps
  | [], _, _, h, _ => by simp at h
  | [q], p, x, h, hx => by simp at h; subst h; exact hx
  | q :: q' :: ps, p, x, h, hx => by
    rw [joinWith]
    rcases List.mem_cons.1 h with rfl | h
    · simp [hx]
    · have := join_mem h hx; simp [this]

theorem split_mem {ts p : List Tok} {x : Tok} (h : p ∈ splitT 124 ts) (hx : x ∈ p) : x ∈ ts := by
  have := join_mem h hx
  rwa [splitT_join] at this

theorem buildAll_some {h : List Tok → Option Node} : ∀ {bs : List (List Tok)}, (∀ b ∈ bs, ∃ t, h b = some t) → ∃ r, buildAll h bs = some r
  | [], _ => ⟨[], rfl⟩
  | b :: bs, hb => by
    obtain ⟨t, ht⟩ := hb b (by simp)
    obtain ⟨r, hr⟩ := buildAll_some (h := h) (bs := bs) (fun x hx => hb x (by simp [hx]))
    exact ⟨t :: r, by simp [buildAll, ht, hr]⟩

theorem add_some {last : Option Node} (h : ∀ l, last = some l → opens l = true) (n : Node) : ∃ t, addChild last n = some t := by
  cases last with
  | none => exact ⟨n, rfl⟩
  | some l => exact ⟨_, add_graft (h l rfl) n⟩

theorem opens_policy (p : Policy) (m : Node) (lo hi : Nat) : opens (p.node m lo hi) = true := by cases p <;> rfl

theorem opens_quantified {m : Node} {c : List Tok} {p : Policy} {n : Node} (h : quantifiedNode m c p = some n) : opens n = true := by
  unfold quantifiedNode at h
  split at h
  · simp only [Option.map_eq_some_iff] at h; obtain ⟨a, _, rfl⟩ := h; rfl
  · simp only [Option.map_eq_some_iff] at h; obtain ⟨a, _, rfl⟩ := h; exact opens_policy _ _ _ _
  · split at h
    · simp at h; subst h; exact opens_policy _ _ _ _
    · simp at h
  · simp at h

/-- The builder gets through. -/
theorem items_helper : ∀ (f : Nat) (last : Option Node) (ts : List Tok) (gi : Nat), ts.length < f → Passes last.isSome ts →
    [92, 120] ∉ ts → [92, 111] ∉ ts → (∀ l, last = some l → opens l = true) → ∃ t, helper f last ts gi = some t
  | 0, _, _, _, h, _, _, _, _ => by omega
  | f + 1, last, ts, gi, hf, hi, hx, ho, hl => by
    have key : ∀ (n : Node) (g : Nat) (rest : List Tok), opens n = true → rest.length < f → Passes true rest → (∀ y ∈ rest, y ∈ ts) →
        ∃ t, (helper f (some n) rest g).bind (addChild last) = some t := by
      intro n g rest hn hlen hir hm
      obtain ⟨t, ht⟩ := items_helper f (some n) rest g hlen hir (fun h => hx (hm _ h)) (fun h => ho (hm _ h)) (by rintro l ⟨⟩; exact hn)
      rw [ht]; exact add_some hl t
    have quant : ∀ (n : Node) (rest : List Tok), opens n = true → rest.length < f → Passes true rest → (∀ y ∈ rest, y ∈ ts) →
        ∃ t, helper f (some n) rest gi = some t := fun n rest hn hlen hir hm =>
      items_helper f (some n) rest gi hlen hir (fun h => hx (hm _ h)) (fun h => ho (hm _ h)) (by rintro l ⟨⟩; exact hn)
    simp only [helper]
    generalize hb : last.isSome = b at hi
    cases hi with
    | nil =>
      cases last with
      | none => simp at hb
      | some l => simp [classify]
    | @tok _ x tl h1 h2 h3 hq ht hi =>
      simp only [List.length_cons] at hf
      by_cases hqx : x = [42] ∨ x = [43] ∨ x = [63]
      · cases last with
        | none =>
          simp at hb; subst hb
          obtain ⟨q1, q2, q3⟩ := hq rfl
          rcases hqx with h | h | h <;> contradiction
        | some l =>
          have hp := items_unpolicy hi
          have hlen := policyOf_le tl
          rcases hqx with rfl | rfl | rfl
          · rw [classify_star]
            simp only [Option.bind_some]
            exact quant _ _ (opens_policy _ _ _ _) (by omega) hp (fun y hy => by simp [policy_mem hy])
          · rw [classify_plus]
            simp only [Option.bind_some]
            exact quant _ _ (opens_policy _ _ _ _) (by omega) hp (fun y hy => by simp [policy_mem hy])
          · rw [classify_opt]
            simp only [Option.bind_some]
            exact quant _ _ (opens_policy _ _ _ _) (by omega) hp (fun y hy => by simp [policy_mem hy])
      · by_cases hd : x = [36] ∧ tl = []
        · obtain ⟨rfl, rfl⟩ := hd
          rw [classify_dollar]
          exact add_some hl _
        · simp only [not_or] at hqx
          rcases classify_generic (b := last.isNone) h1 h2 h3 hqx.1 hqx.2.1 hqx.2.2 hd (by rintro rfl; simp at hx) (by rintro rfl; simp at ho) ht with
            hc | ⟨n, r, hc1, hc⟩ | ⟨t, hc⟩
          · rw [hc]
            exact quant _ _ rfl (by omega) hi (fun y hy => by simp [hy])
          · rw [hc]
            obtain ⟨hr, hm⟩ := octalHead_rest hc1 hi
            have := octalHead_le hc1
            exact key _ _ _ rfl (by omega) hr (fun y hy => by simp [hm y hy])
          · rw [hc]
            exact key _ _ _ rfl (by omega) hi (fun y hy => by simp [hy])
    | @bound tl c r he hq hi =>
      cases last with
      | none => simp at hb
      | some l =>
        rw [classify_brace, he]
        simp only
        cases hn : quantifiedNode l c (policyOf r).1 with
        | none => exact absurd hn (hq _ _)
        | some n =>
          simp only [Option.bind_some]
          have h1 := extractT_lengths he (by decide)
          have h2 := policyOf_le r
          have h3 := (extractT_mem (by decide) he).2
          simp only [List.length_cons] at hf
          exact quant _ _ (opens_quantified hn) (by omega) (items_unpolicy hi) (fun y hy => by simp [h3 y (policy_mem hy)])
    | @cls _ tl c r he hc hne hi =>
      rw [classify_class _ _ hne, he]
      simp only
      cases hn : classNode c with
      | none => exact absurd hn hc
      | some n =>
        have h1 := extractT_lengths he (by decide)
        have h3 := (extractT_mem (by decide) he).2
        simp only [List.length_cons] at hf
        exact key _ _ _ rfl (by omega) hi (fun y hy => by simp [h3 y hy])
    | @ncls _ tl c r he hc hi =>
      rw [classify_negclass, he]
      simp only
      cases hn : classNode c with
      | none => exact absurd hn hc
      | some n =>
        have h1 := extractT_lengths he (by decide)
        have h3 := (extractT_mem (by decide) he).2
        simp only [List.length_cons] at hf
        exact key _ _ _ rfl (by omega) hi (fun y hy => by simp [h3 y hy])
    | @group _ tl c r he hne hp hi =>
      rw [classify_capture _ _ hne, he]
      simp only
      have h1 := extractT_lengths he (by decide)
      have h3 := extractT_mem (by decide) he
      simp only [List.length_cons] at hf
      obtain ⟨bs, hbs⟩ := buildAll_some (h := fun b => helper f none b (gi + 1)) (bs := splitT 124 c) (fun p hm =>
        items_helper f none p (gi + 1) (by have := splitT_le hm; omega) (hp p hm)
          (fun h => hx (by simp [h3.1 _ (split_mem hm h)])) (fun h => ho (by simp [h3.1 _ (split_mem hm h)])) (by simp))
      rw [hbs]
      exact key _ _ _ rfl (by omega) hi (fun y hy => by simp [h3.2 y hy])
    | @quiet _ tl c r he hp hi =>
      rw [classify_noncapture, he]
      simp only
      have h1 := extractT_lengths he (by decide)
      have h3 := extractT_mem (by decide) he
      simp only [List.length_cons] at hf
      obtain ⟨bs, hbs⟩ := buildAll_some (h := fun b => helper f none b gi) (bs := splitT 124 c) (fun p hm =>
        items_helper f none p gi (by have := splitT_le hm; omega) (hp p hm)
          (fun h => hx (by simp [h3.1 _ (split_mem hm h)])) (fun h => ho (by simp [h3.1 _ (split_mem hm h)])) (by simp))
      rw [hbs]
      exact key _ _ _ rfl (by omega) hi (fun y hy => by simp [h3.2 y hy])

/-! ## cutting at `|` in the presence of stray closers -/

/-- Content of a parenthesis: groups, classes, bounds, and any other tokens but openers and `)`. -/
inductive Nest : List Tok → Prop
  | nil : Nest []
  | tok {t ts} : (∀ o c, Bracket o c → t ≠ o) → t ≠ [41] → Nest ts → Nest (t :: ts)
  | block {o c b ts} : Bracket o c → (∀ t ∈ b, Calm t) → Nest ts → Nest (o :: (b ++ c :: ts))
  | group {a b} : Nest a → Nest b → Nest ([40] :: (a ++ [41] :: b))

/-- A row of tokens without a `|` outside its brackets; closers that close nothing may occur. -/
inductive Loose : List Tok → Prop
  | nil : Loose []
  | tok {t ts} : (∀ o c, Bracket o c → t ≠ o) → t ≠ [124] → Loose ts → Loose (t :: ts)
  | block {o c b ts} : Bracket o c → (∀ t ∈ b, Calm t) → Loose ts → Loose (o :: (b ++ c :: ts))
  | group {a b} : Nest a → Loose b → Loose ([40] :: (a ++ [41] :: b))

/-- Under an open bracket `x` the tokens leave the stack as it is, and nothing below `x` is touched in between. -/
def Held (x : Int) (a : List Tok) : Prop :=
  (∀ st, a.foldl pushPop (x :: st) = x :: st) ∧ ∀ a1 a2, a = a1 ++ a2 → ∃ s, ∀ st, a1.foldl pushPop (x :: st) = s ++ x :: st

theorem held_nil (x : Int) : Held x [] :=
  ⟨fun _ => rfl, fun a1 a2 e => ⟨[], fun st => by obtain ⟨rfl, _⟩ : a1 = [] ∧ a2 = [] := by simpa using e.symm
                                                  rfl⟩⟩

theorem held_cons {x : Int} {t : Tok} {ts : List Tok} (h : ∀ st, pushPop (x :: st) t = x :: st) (ht : Held x ts) : Held x (t :: ts) := by
  refine ⟨fun st => by rw [List.foldl_cons, h, ht.1], ?_⟩
  intro a1 a2 e
  cases a1 with
  | nil => exact ⟨[], fun st => rfl⟩
  | cons y a1 =>
    simp at e
    obtain ⟨rfl, e⟩ := e
    obtain ⟨s, hs⟩ := ht.2 a1 a2 e
    exact ⟨s, fun st => by rw [List.foldl_cons, h, hs]⟩

theorem held_pair {x y : Int} {o c : Tok} {a b : List Tok} (hb : Bracket o c) (hy : o = [y]) (ha : Held y a) (hbb : Held x b) :
    Held x (o :: (a ++ c :: b)) := by
  obtain ⟨z, hz, ho⟩ := pushPop_open hb
  rw [hy] at hz
  simp at hz
  subst hz
  refine ⟨fun st => by rw [List.foldl_cons, List.foldl_append, ho, ha.1, List.foldl_cons, pushPop_close hb y hy, hbb.1], ?_⟩
  intro a1 a2 e
  cases a1 with
  | nil => exact ⟨[], fun st => rfl⟩
  | cons w a1 =>
    simp only [List.cons_append, List.cons.injEq] at e
    obtain ⟨rfl, e⟩ := e
    rcases List.append_eq_append_iff.1 e with ⟨u, hu1, hu2⟩ | ⟨u, hu1, hu2⟩
    · cases u with
      | nil =>
        simp at hu1
        exact ⟨[y], fun st => by rw [List.foldl_cons, ho, hu1, ha.1]; rfl⟩
      | cons z zs =>
        simp only [List.cons_append, List.cons.injEq] at hu2
        obtain ⟨s, hs⟩ := hbb.2 zs a2 hu2.2
        refine ⟨s, fun st => ?_⟩
        rw [List.foldl_cons, ho, hu1, List.foldl_append, ha.1, List.foldl_cons, ← hu2.1, pushPop_close hb y hy, hs]
    · obtain ⟨s, hs⟩ := ha.2 a1 u hu1
      exact ⟨s ++ [y], fun st => by rw [List.foldl_cons, ho, hs]; simp⟩

theorem held_calm {x : Int} : ∀ {b : List Tok}, (∀ t ∈ b, Calm t) → Held x b
  | [], _ => held_nil x
  | t :: b, h => held_cons (fun st => pushPop_other (h t (by simp)).1 _) (held_calm (fun y hy => h y (by simp [hy])))

theorem nest_held {a : List Tok} (h : Nest a) : Held 40 a := by
  induction h with
  | nil => exact held_nil _
  | @tok t ts h1 h2 _ ih =>
    refine held_cons (fun st => ?_) ih
    rcases pushPop_noOpen h1 (40 :: st) with e | ⟨x, e, hx⟩
    · exact e
    · simp at e; obtain ⟨rfl, _⟩ := e; cases hx; exact absurd rfl h2
  | @block o c b ts hb hc _ ih =>
    obtain ⟨y, hy, _⟩ := pushPop_open hb
    exact held_pair hb hy (held_calm hc) ih
  | group _ _ ih1 ih2 => exact held_pair .round rfl ih1 ih2

theorem splitAux_loose {w : List Tok} (h : Loose w) : ∀ (cur rest : List Tok) (done : List (List Tok)), OpenersClosed cur →
    splitAux 124 (w ++ rest) cur done = splitAux 124 rest (cur ++ w) done := by
  have pair : ∀ {x : Int} {o c : Tok} {a b : List Tok} (cur rest : List Tok) (done : List (List Tok)), Bracket o c → o = [x] → Held x a →
      OpenersClosed a → OpenersClosed cur →
      splitAux 124 ((o :: (a ++ c :: b)) ++ rest) cur done = splitAux 124 (b ++ rest) (cur ++ o :: (a ++ [c])) done := by
    intro x o c a b cur rest done hb hx ha hoa hc
    obtain ⟨y, hy, ho⟩ := pushPop_open hb
    obtain rfl : x = y := by rw [hx] at hy; simpa using hy
    obtain ⟨hos, hcs⟩ : o ≠ [124] ∧ c ≠ [124] := by cases hb <;> decide
    have e1 : (o :: (a ++ c :: b)) ++ rest = o :: (a ++ (c :: (b ++ rest))) := by simp
    rw [e1, splitAux, if_neg (by simp [hos]), splitAux_inside 124 a]
    · rw [splitAux, if_neg (by simp [hcs])]; simp
    · intro a1 b1 hab
      obtain ⟨s, hs'⟩ := ha.2 a1 b1 hab
      have hcur : cur.foldl pushPop [] = [] := List.sublist_nil.1 (openersClosed_stack hc [])
      rw [balancedV, balancedFrom_eq, List.foldl_append, List.foldl_append, hcur]
      simp only [List.foldl_cons, List.foldl_nil, ho, hs']
      simp
  induction h with
  | nil => intro cur rest done _; simp
  | @tok t ts h1 h2 _ ih =>
    intro cur rest done hc
    simp only [List.cons_append, splitAux]
    rw [if_neg (by simp [h2]), ih _ _ _ (closed_append hc (.skip h1 .nil))]
    simp
  | @block o c b ts hb hcb _ ih =>
    intro cur rest done hc
    obtain ⟨y, hy, _⟩ := pushPop_open hb
    rw [pair cur rest done hb hy (held_calm hcb) (closed_calm hcb) hc, ih _ _ _ (closed_append hc (.pair hb (closed_calm hcb) .nil))]
    simp
  | @group a b ha _ ih =>
    intro cur rest done hc
    have hca : OpenersClosed a := by
      clear ih
      induction ha with
      | nil => exact .nil
      | tok h1 _ _ ih => exact .skip h1 ih
      | block hb hcb _ ih => exact .pair hb (closed_calm hcb) ih
      | group _ _ ih1 ih2 => exact .pair .round ih1 ih2
    rw [pair cur rest done .round rfl (nest_held ha) hca hc, ih _ _ _ (closed_append hc (.pair .round hca .nil))]
    simp

theorem nest_closed {a : List Tok} (h : Nest a) : OpenersClosed a := by
  induction h with
  | nil => exact .nil
  | tok h1 _ _ ih => exact .skip h1 ih
  | block hb hcb _ ih => exact .pair hb (closed_calm hcb) ih
  | group _ _ ih1 ih2 => exact .pair .round ih1 ih2

theorem loose_closed {a : List Tok} (h : Loose a) : OpenersClosed a := by
  induction h with
  | nil => exact .nil
  | tok h1 _ _ ih => exact .skip h1 ih
  | block hb hcb _ ih => exact .pair hb (closed_calm hcb) ih
  | group ha _ ih2 => exact .pair .round (nest_closed ha) ih2

theorem splitAux_rows : ∀ (ps : List (List Tok)) (done : List (List Tok)),
    ps ≠ [] → (∀ p ∈ ps, Loose p) → splitAux 124 (joinWith 124 ps) [] done = done.reverse ++ ps
  | [], _, h, _ => absurd rfl h
  | [p], done, _, h => by
    have := splitAux_loose (h p (by simp)) [] [] done .nil
    simp only [joinWith]
    simp only [List.append_nil, List.nil_append] at this
    rw [this]
    simp [splitAux, reverseT_eq]
  | p :: q :: ps, done, _, h => by
    have hr : ∀ x ∈ q :: ps, Loose x := fun x hx => h x (by simp [hx])
    simp only [joinWith]
    rw [splitAux_loose (h p (by simp)) [] _ done .nil, splitAux, if_pos, splitAux_rows (q :: ps) (_ :: done) (by simp) hr]
    · simp
    · exact ⟨rfl, (balancedV_iff _).2 (closed_join (fun x hx => loose_closed (hr x hx))), (balancedV_iff _).2 (by simpa using loose_closed (h p (by simp)))⟩

theorem splitT_rows {ps : List (List Tok)} (hne : ps ≠ []) (h : ∀ p ∈ ps, Loose p) : splitT 124 (joinWith 124 ps) = ps := by
  have := splitAux_rows ps [] hne h
  simpa [splitT] using this

theorem nest_depth {a : List Tok} (h : Nest a) : depth 40 41 a = 0 ∧ PrefixOk 40 41 0 a := by
  have app : ∀ {k : Int} {a b : List Tok}, PrefixOk 40 41 k a → PrefixOk 40 41 (k + depth 40 41 a) b → PrefixOk 40 41 k (a ++ b) := by
    intro k a b ha hb x y e
    rcases List.append_eq_append_iff.1 e with ⟨u, hu1, hu2⟩ | ⟨u, hu1, hu2⟩
    · have := hb u y hu2
      rw [hu1, depth_append]; omega
    · exact ha x u hu1
  have mono : ∀ {k : Int} {a : List Tok}, PrefixOk 40 41 k a → PrefixOk 40 41 (k + 1) a := fun h x y e => by
    have := h x y e; omega
  have calm : ∀ {k : Int} {a : List Tok}, 0 ≤ k → (∀ t ∈ a, Calm t) → PrefixOk 40 41 k a := fun hk h x y e => by
    rw [depth_calm (fun t ht => h t (by rw [e]; simp [ht])) .round]; omega
  induction h with
  | nil => exact ⟨depth_nil _ _, by intro x y e; obtain ⟨rfl, _⟩ : x = [] ∧ y = [] := by simpa using e.symm
                                    simp [depth_nil]⟩
  | @tok t ts h1 h2 _ ih =>
    have h3 : t ≠ [40] := h1 _ _ .round
    refine ⟨by rw [depth_cons _ _ (by decide), if_neg h3, if_neg h2, ih.1]; rfl, prefixOk_cons (by decide) (by decide) ?_⟩
    rw [if_neg h3, if_neg h2]; exact ih.2
  | @block o c b ts hb hcb _ ih =>
    by_cases hr : o = [40]
    · subst hr
      cases hb
      refine ⟨by rw [depth_cons _ _ (by decide), depth_append, depth_calm hcb .round, depth_cons _ _ (by decide), ih.1]; rfl,
        prefixOk_cons (by decide) (by decide) ?_⟩
      refine app (calm (by decide) hcb) (prefixOk_cons (by decide) ?_ ?_)
      · rw [depth_calm hcb .round]; decide
      · rw [depth_calm hcb .round]; exact ih.2
    · have hc : o ≠ [41] ∧ c ≠ [40] ∧ c ≠ [41] := by cases hb <;> first | (exact absurd rfl hr) | decide
      refine ⟨by rw [depth_cons _ _ (by decide), depth_append, depth_calm hcb .round, depth_cons _ _ (by decide), ih.1, if_neg hr, if_neg hc.1,
        if_neg hc.2.1, if_neg hc.2.2]; rfl, prefixOk_cons (by decide) (by decide) ?_⟩
      rw [if_neg hr, if_neg hc.1]
      refine app (calm (by decide) hcb) (prefixOk_cons (by decide) ?_ ?_)
      · rw [depth_calm hcb .round]; decide
      · rw [depth_calm hcb .round, if_neg hc.2.1, if_neg hc.2.2]; exact ih.2
  | @group a b _ _ ih1 ih2 =>
    refine ⟨by rw [depth_cons _ _ (by decide), depth_append, depth_cons _ _ (by decide), ih1.1, ih2.1]; rfl,
      prefixOk_cons (by decide) (by decide) ?_⟩
    refine app (mono ih1.2) (prefixOk_cons (by decide) ?_ ?_)
    · rw [ih1.1]; decide
    · rw [ih1.1]; exact ih2.2

theorem extractT_nest {a r : List Tok} (h : Nest a) : extractT 40 41 (a ++ [41] :: r) = some (a, r) := by
  obtain ⟨h1, h2⟩ := nest_depth h
  have := extractAux_complete 40 41 (by decide) a 0 [] r (by simpa using h1) (fun x y e => by simpa using h2 x y e)
  simpa [extractT] using this

/-! ## from the grammar to the builder -/

/-- Tokens whose escapes, classes and bounds are in order, with their outline. -/
inductive Drawn : List Tok → List Int → Prop
  | nil : Drawn [] []
  | plain {c ts s} : c ≠ 91 → c ≠ 123 → c ≠ 92 → Drawn ts s → Drawn ([c] :: ts) (c :: s)
  | slash {ts s} : Drawn ts s → Drawn ([92] :: ts) (97 :: s)
  | esc {c ts s} : terminalOf [92, c] ≠ none → c ≠ 120 → c ≠ 111 → Drawn ts s → Drawn ([92, c] :: ts) (97 :: s)
  | cls {b ts s} : (∀ t ∈ b, Calm t) → [92, 120] ∉ b → [92, 111] ∉ b → classNode b ≠ none → (∀ v, b ≠ [94] :: v) → Drawn ts s →
      Drawn ([91] :: (b ++ [93] :: ts)) (97 :: s)
  | ncls {b ts s} : (∀ t ∈ b, Calm t) → [92, 120] ∉ b → [92, 111] ∉ b → classNode b ≠ none → Drawn ts s →
      Drawn ([91] :: [94] :: (b ++ [93] :: ts)) (97 :: s)
  | bound {b ts s} : (∀ t ∈ b, Calm t) → [92, 120] ∉ b → [92, 111] ∉ b → (∀ m p, quantifiedNode m b p ≠ none) → Drawn ts s →
      Drawn ([123] :: (b ++ [125] :: ts)) (42 :: s)

theorem drawn_hexless {ts : List Tok} {s : List Int} (h : Drawn ts s) : [92, 120] ∉ ts ∧ [92, 111] ∉ ts := by
  induction h with
  | nil => simp
  | plain _ _ _ _ ih => simpa using ih
  | slash _ ih => simpa using ih
  | esc _ h1 h2 _ ih => simp; exact ⟨⟨Ne.symm h1, ih.1⟩, ⟨Ne.symm h2, ih.2⟩⟩
  | cls _ h1 h2 _ _ _ ih => simp [h1, h2, ih]
  | ncls _ h1 h2 _ _ ih => simp [h1, h2, ih]
  | bound _ h1 h2 _ _ ih => simp [h1, h2, ih]

/-- Cut at a character of the outline. -/
theorem drawn_prefix {ts : List Tok} {s : List Int} (h : Drawn ts s) : ∀ {a b : List Int}, s = a ++ b →
    ∃ a' b', ts = a' ++ b' ∧ Drawn a' a ∧ Drawn b' b := by
  induction h with
  | nil => intro a b e; obtain ⟨rfl, rfl⟩ : a = [] ∧ b = [] := by simpa using e.symm
           exact ⟨[], [], rfl, .nil, .nil⟩
  | @plain c ts s h1 h2 h3 ho ih =>
    intro a b e
    cases a with
    | nil => simp at e; subst e; exact ⟨[], _, rfl, .nil, .plain h1 h2 h3 ho⟩
    | cons y a => simp at e; obtain ⟨rfl, e⟩ := e; obtain ⟨a', b', rfl, p, q⟩ := ih e; exact ⟨_ :: a', b', rfl, .plain h1 h2 h3 p, q⟩
  | @slash ts s ho ih =>
    intro a b e
    cases a with
    | nil => simp at e; subst e; exact ⟨[], _, rfl, .nil, .slash ho⟩
    | cons y a => simp at e; obtain ⟨rfl, e⟩ := e; obtain ⟨a', b', rfl, p, q⟩ := ih e; exact ⟨_ :: a', b', rfl, .slash p, q⟩
  | @esc c ts s h1 h2 h3 ho ih =>
    intro a b e
    cases a with
    | nil => simp at e; subst e; exact ⟨[], _, rfl, .nil, .esc h1 h2 h3 ho⟩
    | cons y a => simp at e; obtain ⟨rfl, e⟩ := e; obtain ⟨a', b', rfl, p, q⟩ := ih e; exact ⟨_ :: a', b', rfl, .esc h1 h2 h3 p, q⟩
  | @cls w ts s hb h1 h2 h3 h4 ho ih =>
    intro a b e
    cases a with
    | nil => simp at e; subst e; exact ⟨[], _, rfl, .nil, .cls hb h1 h2 h3 h4 ho⟩
    | cons y a =>
      simp at e; obtain ⟨rfl, e⟩ := e; obtain ⟨a', b', rfl, p, q⟩ := ih e
      exact ⟨[91] :: (w ++ [93] :: a'), b', by simp, .cls hb h1 h2 h3 h4 p, q⟩
  | @ncls w ts s hb h1 h2 h3 ho ih =>
    intro a b e
    cases a with
    | nil => simp at e; subst e; exact ⟨[], _, rfl, .nil, .ncls hb h1 h2 h3 ho⟩
    | cons y a =>
      simp at e; obtain ⟨rfl, e⟩ := e; obtain ⟨a', b', rfl, p, q⟩ := ih e
      exact ⟨[91] :: [94] :: (w ++ [93] :: a'), b', by simp, .ncls hb h1 h2 h3 p, q⟩
  | @bound w ts s hb h1 h2 h3 ho ih =>
    intro a b e
    cases a with
    | nil => simp at e; subst e; exact ⟨[], _, rfl, .nil, .bound hb h1 h2 h3 ho⟩
    | cons y a =>
      simp at e; obtain ⟨rfl, e⟩ := e; obtain ⟨a', b', rfl, p, q⟩ := ih e
      exact ⟨[123] :: (w ++ [125] :: a'), b', by simp, .bound hb h1 h2 h3 p, q⟩

/-- Cut off a character other than a letter or `*`. -/
theorem drawn_head {ts : List Tok} {c : Int} {s : List Int} (h : Drawn ts (c :: s)) (h1 : c ≠ 97) (h2 : c ≠ 42) : ∃ tl, ts = [c] :: tl ∧ Drawn tl s := by
  cases h with
  | plain _ _ _ h => exact ⟨_, rfl, h⟩
  | slash => exact absurd rfl h1
  | esc => exact absurd rfl h1
  | cls => exact absurd rfl h1
  | ncls => exact absurd rfl h1
  | bound => exact absurd rfl h2

theorem drawn_nil {ts : List Tok} (h : Drawn ts []) : ts = [] := by cases h; rfl

theorem nest_append {a b : List Tok} (ha : Nest a) (hb : Nest b) : Nest (a ++ b) := by
  induction ha with
  | nil => exact hb
  | tok h1 h2 _ ih => exact .tok h1 h2 ih
  | @block o c x ts h1 h2 _ ih => rw [List.cons_append, List.append_assoc, List.cons_append]; exact .block h1 h2 ih
  | @group x y h1 _ _ ih => rw [List.cons_append, List.append_assoc, List.cons_append]; exact .group h1 ih

theorem nest_join : ∀ {ps : List (List Tok)}, (∀ p ∈ ps, Nest p) → Nest (joinWith 124 ps)
  | [], _ => .nil
  | [p], h => h p (by simp)
  | p :: q :: ps, h => by
    rw [joinWith]
    exact nest_append (h p (by simp)) (.tok bar_no_opener (by decide) (nest_join (fun x hx => h x (by simp [hx]))))

theorem calm_caret {b : List Tok} (h : ∀ t ∈ b, Calm t) : ∀ t ∈ [94] :: b, Calm t := by
  intro t ht
  rcases List.mem_cons.1 ht with rfl | ht
  · exact calm_single (by decide)
  · exact h t ht

mutual
  theorem pattern_pieces : ∀ {top : Bool} {s : List Int}, Pattern top s → ∀ {ts : List Tok}, Drawn ts s →
      ∃ ps, ts = joinWith 124 ps ∧ ps ≠ [] ∧ ∀ p ∈ ps, Loose p ∧ (top = false → Nest p) ∧ Passes false p
    | _, _, .one h, ts, hd => ⟨[ts], rfl, by simp, fun p hp => by
        obtain rfl : p = ts := by simpa using hp
        exact branch_items h hd⟩
    | _, _, .more (s := s) (t := t) h1 h2, ts, hd => by
      obtain ⟨a, b, rfl, ha, hb⟩ := drawn_prefix hd rfl
      obtain ⟨b', rfl, hb'⟩ := drawn_head hb (by decide) (by decide)
      obtain ⟨ps, rfl, hne, hps⟩ := pattern_pieces h2 hb'
      have h3 := branch_items h1 ha
      cases ps with
      | nil => exact absurd rfl hne
      | cons p ps =>
        refine ⟨a :: p :: ps, rfl, by simp, fun q hq => ?_⟩
        rcases List.mem_cons.1 hq with rfl | hq
        · exact h3
        · exact hps q hq
  theorem branch_items : ∀ {top : Bool} {s : List Int}, Branch top s → ∀ {ts : List Tok}, Drawn ts s →
      Loose ts ∧ (top = false → Nest ts) ∧ Passes false ts
    | _, _, .mk (c := c) (s := s) h hq, ts, hd => by
      obtain ⟨h1, h2, h3⟩ := row_items h hd
      exact ⟨h1, h2, h3 false (fun _ => ⟨c, s, rfl, hq⟩)⟩
  theorem row_items : ∀ {top : Bool} {s : List Int}, Row top s → ∀ {ts : List Tok}, Drawn ts s →
      Loose ts ∧ (top = false → Nest ts) ∧ ∀ b, (b = false → ∃ x s', s = x :: s' ∧ ¬ quantifier x) → Passes b ts
    | _, _, .nil, ts, hd => by
      rw [drawn_nil hd]
      refine ⟨.nil, fun _ => .nil, ?_⟩
      intro b hb
      cases b with
      | true => exact .nil
      | false => obtain ⟨x, s', h, _⟩ := hb rfl; simp at h
    | top, _, .char (c := c) (s := s) h1 h2 h3 h, ts, hd => by
      cases hd with
      | @plain _ tl _ n1 n2 n3 hd =>
        obtain ⟨i1, i2, i3⟩ := row_items h hd
        have hno : ∀ o cl, Bracket o cl → [c] ≠ o := by intro o cl hb; cases hb <;> simp <;> omega
        refine ⟨.tok hno (by simpa using h2) i1, fun ht => .tok hno (by simp; intro e; simp [h3 e] at ht) (i2 ht), ?_⟩
        intro b hb
        refine .tok (by simpa using h1) (by simpa using n1) (by simpa using n2) ?_ (terminalOf_one c) (i3 true (by simp))
        intro e
        obtain ⟨x, s', hx, hq⟩ := hb e
        simp at hx
        obtain ⟨rfl, _⟩ := hx
        simp only [quantifier, not_or] at hq
        simpa using hq
      | @slash tl _ hd =>
        obtain ⟨i1, i2, i3⟩ := row_items h hd
        have hno : ∀ o cl, Bracket o cl → ([92] : Tok) ≠ o := by intro o cl hb; cases hb <;> decide
        exact ⟨.tok hno (by decide) i1, fun ht => .tok hno (by decide) (i2 ht),
          fun b hb => .tok (by decide) (by decide) (by decide) (fun _ => by decide) (by decide) (i3 true (by simp))⟩
      | @esc d tl _ n1 n2 n3 hd =>
        obtain ⟨i1, i2, i3⟩ := row_items h hd
        have hno : ∀ o cl, Bracket o cl → ([92, d] : Tok) ≠ o := by intro o cl hb; cases hb <;> simp
        exact ⟨.tok hno (by simp) i1, fun ht => .tok hno (by simp) (i2 ht),
          fun b hb => .tok (by simp) (by simp) (by simp) (fun _ => by simp) n1 (i3 true (by simp))⟩
      | @cls w tl _ hw _ _ hc hne hd =>
        obtain ⟨i1, i2, i3⟩ := row_items h hd
        refine ⟨.block .square hw i1, fun ht => .block .square hw (i2 ht), fun b hb => ?_⟩
        refine .cls (extractT_calm .square (by decide) hw) hc ?_ (i3 true (by simp))
        intro tl' e
        cases w with
        | nil => simp at e
        | cons y w => simp at e; exact hne w (by rw [e.1])
      | @ncls w tl _ hw _ _ hc hd =>
        obtain ⟨i1, i2, i3⟩ := row_items h hd
        exact ⟨.block (b := [94] :: w) .square (calm_caret hw) i1, fun ht => .block (b := [94] :: w) .square (calm_caret hw) (i2 ht),
          fun b hb => .ncls (extractT_calm .square (by decide) hw) hc (i3 true (by simp))⟩
      | @bound w tl _ hw _ _ hc hd =>
        obtain ⟨i1, i2, i3⟩ := row_items h hd
        refine ⟨.block .curly hw i1, fun ht => .block .curly hw (i2 ht), fun b hb => ?_⟩
        cases b with
        | true => exact .bound (extractT_calm .curly (by decide) hw) hc (i3 true (by simp))
        | false =>
          obtain ⟨x, s', hx, hq⟩ := hb rfl
          simp at hx
          rw [← hx.1] at hq
          exact absurd (Or.inl rfl) hq
    | top, _, .group (a := a) (s := s) h1 h2, ts, hd => by
      obtain ⟨tl, rfl, hd1⟩ := drawn_head hd (by decide) (by decide)
      obtain ⟨ta, tb, rfl, hda, hdb⟩ := drawn_prefix hd1 rfl
      obtain ⟨tb, rfl, hdc⟩ := drawn_head hdb (by decide) (by decide)
      obtain ⟨i1, i2, i3⟩ := row_items h2 hdc
      obtain ⟨ps, rfl, hne, hps⟩ := pattern_pieces h1 hda
      have hn : Nest (joinWith 124 ps) := nest_join (fun p hp => (hps p hp).2.1 rfl)
      refine ⟨.group hn i1, fun ht => .group hn (i2 ht), fun b hb => ?_⟩
      refine .group (extractT_nest hn) ?_ (by rw [splitT_rows hne (fun p hp => (hps p hp).1)]; exact fun p hp => (hps p hp).2.2) (i3 true (by simp))
      intro tl' e
      cases ps with
      | nil => exact absurd rfl hne
      | cons p ps =>
        have hi := (hps p (by simp)).2.2
        cases p with
        | nil => cases hi
        | cons y p =>
          have hy : y = [63] := by cases ps <;> simp [joinWith] at e <;> exact e.1
          subst hy
          cases hi with
          | tok _ _ _ hq => exact (hq rfl).2.2 rfl
    | top, _, .quiet (a := a) (s := s) h1 h2, ts, hd => by
      obtain ⟨tl, rfl, hd1⟩ := drawn_head hd (by decide) (by decide)
      obtain ⟨tl, rfl, hd2⟩ := drawn_head hd1 (by decide) (by decide)
      obtain ⟨tl, rfl, hd3⟩ := drawn_head hd2 (by decide) (by decide)
      obtain ⟨ta, tb, rfl, hda, hdb⟩ := drawn_prefix hd3 rfl
      obtain ⟨tb, rfl, hdc⟩ := drawn_head hdb (by decide) (by decide)
      obtain ⟨i1, i2, i3⟩ := row_items h2 hdc
      obtain ⟨ps, rfl, hne, hps⟩ := pattern_pieces h1 hda
      have hn : Nest (joinWith 124 ps) := nest_join (fun p hp => (hps p hp).2.1 rfl)
      have hn' : Nest ([63] :: [58] :: joinWith 124 ps) :=
        .tok (by intro o c h; cases h <;> decide) (by decide) (.tok (by intro o c h; cases h <;> decide) (by decide) hn)
      exact ⟨.group (a := [63] :: [58] :: joinWith 124 ps) hn' i1, fun ht => .group (a := [63] :: [58] :: joinWith 124 ps) hn' (i2 ht), fun b hb =>
        .quiet (extractT_nest hn) (by rw [splitT_rows hne (fun p hp => (hps p hp).1)]; exact fun p hp => (hps p hp).2.2) (i3 true (by simp))⟩
end

theorem topBranches_some {f : Nat} : ∀ {bs : List (List Tok)} (gi : Nat), (∀ b ∈ bs, ∀ g, ∃ t, helper f none b g = some t) →
    ∃ r, topBranches f bs gi = some r
  | [], _, _ => ⟨[], rfl⟩
  | b :: bs, gi, h => by
    obtain ⟨t, ht⟩ := h b (by simp) gi
    obtain ⟨r, hr⟩ := topBranches_some (f := f) (bs := bs) (nextIdx t) (fun x hx => h x (by simp [hx]))
    exact ⟨t :: r, by simp [topBranches, ht, hr]⟩

/-- A pattern with a well-formed outline and sound atoms compiles. -/
theorem drawn_build {p : List Ch} {ts : List Tok} {s : List Int} (ht : Tokens p ts) (hd : Drawn ts s) (hp : Pattern true s) :
    ∃ t, build p = some t := by
  obtain ⟨hx, ho⟩ := drawn_hexless hd
  obtain ⟨ps, rfl, hne, hps⟩ := pattern_pieces hp hd
  rw [build, (tokenize_iff p _).2 ht]
  simp only
  rw [splitT_rows hne (fun p hp => (hps p hp).1)]
  obtain ⟨r, hr⟩ := topBranches_some (f := (joinWith 124 ps).length + 1) (bs := ps) 0 (fun b hb g =>
    items_helper _ none b g (by
      have := splitT_le (sep := 124) (ts := joinWith 124 ps) (p := b) (by rw [splitT_rows hne (fun p hp => (hps p hp).1)]; exact hb)
      omega) (hps b hb).2.2 (fun h => hx (join_mem hb h)) (fun h => ho (join_mem hb h)) (by simp))
  rw [hr]
  exact ⟨_, rfl⟩

/-! ## from the characters to the tokens -/

theorem terminalOf_simple {c : Int} (h : simpleEscape c) : terminalOf [92, c] ≠ none := by
  obtain ⟨h1, h2, h3, h4, _, _⟩ := h
  unfold terminalOf
  split <;> simp_all

theorem calm_ordinary {c : Int} (h : ordinary c) : Calm [c] := calm_single (by unfold ordinary at h; omega)

theorem classItems_escaped {f : Nat} {c : Int} {tl : List Tok} (h : ∀ x v, tl ≠ [45] :: x :: v) {t : Node} (ht : terminalOf [92, c] = some t) :
    classItems (f + 1) ([92, c] :: tl) = (classItems f tl).map (fun r => .simple t [] :: r) := by
  conv => lhs; unfold classItems
  split
  · simp_all
  · simp_all
  · simp_all
  · rename_i heq
    simp only [List.cons.injEq] at heq
    obtain ⟨e, rfl⟩ := heq
    obtain ⟨_, rfl⟩ : (92 : Int) = 92 ∧ c = _ := by simpa using e
    rw [ht]
    simp_all
  · rename_i hno _ heq
    simp only [List.cons.injEq] at heq
    exact absurd heq.1.symm (hno c)

theorem classItems_char {f : Nat} {c : Int} {tl : List Tok} (h : ∀ x v, tl ≠ [45] :: x :: v) :
    classItems (f + 1) ([c] :: tl) = (classItems f tl).map (fun r => .simple (.exact [c] [c]) [] :: r) := by
  conv => lhs; unfold classItems
  split
  · simp_all
  · simp_all
  · simp_all
  · simp_all
  · rename_i heq
    simp only [List.cons.injEq] at heq
    obtain ⟨rfl, rfl⟩ := heq
    rename_i hf _ _
    obtain rfl : f = _ := by simpa using hf
    rw [if_neg (by simp)]

theorem class_tokens {u : List Int} (h : ClassItems u) : ∃ b : List Tok, (∀ p ts, Tokens p ts → Tokens (u ++ 93 :: p) (b ++ [93] :: ts)) ∧
    (∀ t ∈ b, Calm t) ∧ [92, 120] ∉ b ∧ [92, 111] ∉ b ∧ (∃ r, (∀ f, b.length ≤ f → classItems f b = some r) ∧ (b ≠ [] → r ≠ [])) ∧
    (u ≠ [] → b ≠ []) ∧ ((∀ v, u ≠ 94 :: v) → ∀ v, b ≠ [94] :: v) ∧ ((∀ x v, u ≠ 45 :: x :: v) → ∀ x v, b ≠ [45] :: x :: v) ∧ (u = [] → b = []) := by
  induction h with
  | nil =>
    exact ⟨[], fun p ts h => .plain (by decide) (by decide) h, by simp, by simp, by simp, ⟨[], fun f _ => by cases f <;> rfl, by simp⟩, by simp,
      by simp, by simp, by simp⟩
  | @escape c u hc hd _ ih =>
    obtain ⟨b, h1, h2, h3, h4, ⟨r, h5, h5'⟩, h6, h7, h8, h9⟩ := ih
    cases ht : terminalOf [92, c] with
    | none => exact absurd ht (terminalOf_simple hc)
    | some t =>
      refine ⟨[92, c] :: b, fun p ts h => .escaped (h1 p ts h), ?_, ?_, ?_, ⟨.simple t [] :: r, ?_, by simp⟩, by simp, by simp, by simp, by simp⟩
      · intro t ht
        rcases List.mem_cons.1 ht with rfl | ht
        · exact calm_pair _ _
        · exact h2 t ht
      · have := hc.2.2.2.2.1; simp [h3]; omega
      · have := hc.2.2.2.2.2; simp [h4]; omega
      · intro f hf
        cases f with
        | zero => simp at hf
        | succ f => rw [classItems_escaped (h8 hd) ht, h5 f (by simpa using hf)]; rfl
  | @range a d u ha hd hlt hle _ ih =>
    obtain ⟨b, h1, h2, h3, h4, ⟨r, h5, h5'⟩, h6, h7, h8, h9⟩ := ih
    refine ⟨[a] :: [45] :: [d] :: b, ?_, ?_, by simpa using h3, by simpa using h4, ⟨.simple (.range a d [91, a, 45, d, 93]) [] :: r, ?_, by simp⟩, by simp, ?_, ?_, by simp⟩
    · intro p ts h
      exact .plain ha.1 ha.2.2.2.2.2.2.1 (.plain (by decide) (by decide) (.plain hd.1 hd.2.2.2.2.2.2.1 (h1 p ts h)))
    · intro t ht
      simp only [List.mem_cons] at ht
      rcases ht with rfl | rfl | rfl | ht
      · exact calm_ordinary ha
      · exact calm_single (by decide)
      · exact calm_ordinary hd
      · exact h2 t ht
    · intro f hf
      cases f with
      | zero => simp at hf
      | succ f =>
        have hr : rangeOk a d = true := by simp [rangeOk]; omega
        simp only [List.length_cons] at hf
        simp only [classItems, hr, if_true, h5 f (by omega)]
        rfl
    · intro hn v e
      simp at e
      exact hn (45 :: d :: u) (by rw [e.1])
    · intro hn x v e
      simp at e
      exact hn 45 (d :: u) (by rw [e.1])
  | @char c u hc hd _ ih =>
    obtain ⟨b, h1, h2, h3, h4, ⟨r, h5, h5'⟩, h6, h7, h8, h9⟩ := ih
    refine ⟨[c] :: b, fun p ts h => .plain hc.1 hc.2.2.2.2.2.2.1 (h1 p ts h), ?_, by simpa using h3, by simpa using h4,
      ⟨.simple (.exact [c] [c]) [] :: r, ?_, by simp⟩, by simp, ?_, ?_, by simp⟩
    · intro t ht
      rcases List.mem_cons.1 ht with rfl | ht
      · exact calm_ordinary hc
      · exact h2 t ht
    · intro f hf
      cases f with
      | zero => simp at hf
      | succ f => rw [classItems_char (h8 hd), h5 f (by simpa using hf)]; rfl
    · intro hn v e
      simp at e
      exact hn u (by rw [e.1])
    · intro hn x v e
      simp at e
      obtain ⟨rfl, rfl⟩ := e
      cases u with
      | nil => simp at h9
      | cons y u => exact hn y u rfl

theorem class_node {b : List Tok} {r : List Node} (h : ∀ f, b.length ≤ f → classItems f b = some r) (hr : r ≠ []) : classNode b ≠ none := by
  unfold classNode
  rw [h b.length (Nat.le_refl _)]
  cases r with
  | nil => exact absurd rfl hr
  | cons => simp

theorem quantified_some {a : Tok} (ha : a ≠ []) : (∀ m p, quantifiedNode m [a] p ≠ none) ∧ (∀ m p, quantifiedNode m [a, [44]] p ≠ none) ∧
    ∀ b, b ≠ [] → ∀ m p, quantifiedNode m [a, [44], b] p ≠ none := by
  refine ⟨?_, ?_, ?_⟩ <;> intros <;> simp_all [quantifiedNode, packStringToNumber]

theorem bound_tokens {d : Int} {u p : List Int} {ts : List Tok} {s : List Int} (hu : ∀ c ∈ d :: u, ordinary c) (hd : d ≠ 44)
    (ht : Tokens p ts) (ho : Drawn ts s) : ∃ ts', Tokens (123 :: (d :: u ++ 125 :: p)) ts' ∧ Drawn ts' (42 :: s) := by
  have hu' : ∀ c ∈ d :: u, ¬ (c = 40 ∨ c = 41 ∨ c = 124 ∨ c = 91 ∨ c = 93 ∨ c = 123 ∨ c = 125) := fun c hc => by
    have := hu c hc; unfold ordinary at this; omega
  have h5 : (125 : Int) ∉ d :: u := fun h => hu' _ h (by simp)
  have hs : ∀ {t : Tok} {x : Int}, (∀ c ∈ t, c ∈ d :: u) → [92, x] ≠ t := by
    rintro t x h rfl; exact (hu 92 (h 92 (by simp))).1 rfl
  by_cases hc : (44 : Int) ∈ d :: u
  · obtain ⟨a, b, e, ha⟩ : ∃ a b, d :: u = a ++ 44 :: b ∧ (44 : Int) ∉ a := by
      clear h5 hu hu' hs hd
      generalize d :: u = w at hc
      induction w with
      | nil => simp at hc
      | cons x u ih =>
        by_cases hx : x = 44
        · exact ⟨[], u, by simp [hx], by simp⟩
        · obtain ⟨a, b, e, h⟩ := ih (by simpa [Ne.symm hx] using hc)
          exact ⟨x :: a, b, by simp [e], by simp [h]; omega⟩
    rw [e] at hu' h5 hs
    have hane : a ≠ [] := by rintro rfl; simp at e; exact hd e.1
    have h5a : (125 : Int) ∉ a := fun h => h5 (by simp [h])
    have h5b : (125 : Int) ∉ b := fun h => h5 (by simp [h])
    rw [e]
    have sa : ∀ c ∈ a, c ∈ a ++ 44 :: b := fun c h => by simp [h]
    have sb : ∀ c ∈ b, c ∈ a ++ 44 :: b := fun c h => by simp [h]
    by_cases hb : b = []
    · subst hb
      refine ⟨_, by simpa using Tokens.brace2 h5a ha ht, ?_⟩
      refine Drawn.bound (b := [a, [44]]) ?_ (by simpa using hs sa) (by simpa using hs sa) (quantified_some hane).2.1 ho
      intro t ht
      simp at ht
      rcases ht with rfl | rfl
      · exact calm_sub hu' sa
      · exact calm_single (by decide)
    · refine ⟨_, by simpa using Tokens.brace3 h5a ha hb h5b ht, ?_⟩
      refine Drawn.bound (b := [a, [44], b]) ?_ (by simpa using ⟨hs sa, hs sb⟩) (by simpa using ⟨hs sa, hs sb⟩) ((quantified_some hane).2.2 b hb) ho
      intro t ht
      simp at ht
      rcases ht with rfl | rfl | rfl
      · exact calm_sub hu' sa
      · exact calm_single (by decide)
      · exact calm_sub hu' sb
  · exact ⟨_, .brace1 h5 hc ht, Drawn.bound (b := [d :: u]) (by
      intro t ht
      simp at ht
      rw [ht]; exact calm_sub hu' (fun c h => h)) (by simpa using hs (fun c h => h)) (by simpa using hs (fun c h => h))
      (quantified_some (by simp)).1 ho⟩

theorem sketch_tokens {p s : List Int} (h : Sketch p s) : ∃ ts, Tokens p ts ∧ Drawn ts s := by
  induction h with
  | nil => exact ⟨[], .nil, .nil⟩
  | trailing => exact ⟨_, .trailing, .slash .nil⟩
  | char h1 h2 h3 _ ih => obtain ⟨ts, a, b⟩ := ih; exact ⟨_, .plain h1 h3 a, .plain h2 h3 h1 b⟩
  | escape hc _ ih =>
    obtain ⟨ts, a, b⟩ := ih
    exact ⟨_, .escaped a, .esc (terminalOf_simple hc) hc.2.2.2.2.1 hc.2.2.2.2.2 b⟩
  | cls hu hne hn _ ih =>
    obtain ⟨ts, a, b⟩ := ih
    obtain ⟨w, h1, h2, h3, h4, ⟨r, h5, h5'⟩, h6, h7, _⟩ := class_tokens hu
    exact ⟨_, .plain (by decide) (by decide) (h1 _ _ a), .cls h2 h3 h4 (class_node h5 (h5' (h6 hne))) (h7 hn) b⟩
  | negated hu hne _ ih =>
    obtain ⟨ts, a, b⟩ := ih
    obtain ⟨w, h1, h2, h3, h4, ⟨r, h5, h5'⟩, h6, h7, _⟩ := class_tokens hu
    exact ⟨_, .plain (by decide) (by decide) (.plain (by decide) (by decide) (h1 _ _ a)), .ncls h2 h3 h4 (class_node h5 (h5' (h6 hne))) b⟩
  | bound hu hd _ ih =>
    obtain ⟨ts, a, b⟩ := ih
    exact bound_tokens hu hd a b

theorem drawn_out {ts : List Tok} {s : List Int} (h : Drawn ts s) : Out ts s := by
  induction h with
  | nil => exact .nil
  | plain h1 h2 h3 _ ih => exact .plain h1 h2 h3 ih
  | slash _ ih => exact .slash ih
  | esc _ _ _ _ ih => exact .esc ih
  | cls h _ _ _ _ _ ih => exact .cls h ih
  | @ncls b _ _ h _ _ _ _ ih => exact .cls (b := [94] :: b) (calm_caret h) ih
  | bound h _ _ _ _ ih => exact .bound h ih

theorem classItems_range {x y : Int} (hxy : rangeOk x y = false) : ∀ {w : List Int} (f : Nat) (tl : List Tok), 45 ∉ w → 92 ∉ w → x ≠ 45 → x ≠ 92 → y ≠ 92 →
    classItems f (w.map (fun c => [c]) ++ [x] :: [45] :: [y] :: tl) = none
  | _, 0, tl, _, _, _, _, _ => by
    cases h : (List.map (fun c => [c]) _ ++ [x] :: [45] :: [y] :: tl) with
    | nil => simp at h
    | cons _ _ => rfl
  | [], f + 1, tl, _, _, _, _, _ => by simp [classItems, hxy]
  | [c], f + 1, tl, h1, h2, hx, hx', hy => by
    have ih := classItems_range hxy (w := []) f tl (by simp) (by simp) hx hx' hy
    simp at ih
    simp only [List.map_cons, List.map_nil, List.cons_append, List.nil_append]
    rw [classItems_char (by simp; intro h; exact absurd h hx), ih]; rfl
  | c :: d :: w, f + 1, tl, h1, h2, hx, hx', hy => by
    have ih := classItems_range hxy (w := d :: w) f tl (by simp_all) (by simp_all) hx hx' hy
    simp at h1
    simp only [List.map_cons, List.cons_append] at ih ⊢
    rw [classItems_char (fun z v e => by simp at e; exact absurd e.1.symm h1.2.1), ih]; rfl

/-- A class with an empty range. -/
theorem build_range {p : List Ch} {a w b : List Int} {x y : Int} (e : p = a ++ 91 :: (w ++ x :: 45 :: y :: b)) (h1 : 92 ∉ a) (h2 : 123 ∉ a) (h3 : 91 ∉ a)
    (hw : ∀ c ∈ w, ordinary c ∧ c ≠ 45) (hx : ordinary x) (hx1 : x ≠ 45) (hx2 : x ≠ 94) (hy : ordinary y) (hxy : rangeOk x y = false) :
    build p = none := by
  cases h : build p with
  | none => rfl
  | some t =>
    obtain ⟨v, b', v', u, hv, k, ev, eu⟩ := build_at h e h1 h2 h3 (x := [91])
      (by
        intro ts ht
        cases ht with
        | plain _ _ h => exact ⟨_, rfl⟩) (by simp) (by simp) (by simp)
    have ha : ∀ c ∈ w ++ [x, 45, y], ordinary c := by
      intro c hc
      simp only [List.mem_append, List.mem_cons, List.not_mem_nil, or_false] at hc
      rcases hc with hc | rfl | rfl | rfl
      · exact (hw c hc).1
      · exact hx
      · unfold ordinary; decide
      · exact hy
    have hv' : Tokens ((w ++ [x, 45, y]) ++ b) v := by
      cases hv with
      | plain _ _ h => simpa using h
    obtain ⟨ts', h5, ev2⟩ := tokens_prefix (fun h => (ha _ h).1 rfl) (fun h => (ha _ h).2.2.2.2.2.2.1 rfl) hv'
    have plain : ∀ c ∈ w ++ [x, 45, y], [c] ≠ [93] ∧ [c] ≠ [124] ∧ [c] ≠ [41] := by
      intro c hc; have := ha c hc; unfold ordinary at this; simp; omega
    -- the class contains the range
    have hpre : ∀ c r, v' = c ++ [93] :: r → ∃ r', c = (w ++ [x, 45, y]).map (fun c => [c]) ++ r' := by
      intro c r ec
      rw [ev, ec] at ev2
      rw [List.append_assoc] at ev2
      rcases List.append_eq_append_iff.1 ev2 with ⟨z, e1, e2⟩ | ⟨z, e1, e2⟩
      · cases z with
        | nil => exact ⟨[], by simpa using e1.symm⟩
        | cons z0 z =>
          simp only [List.cons_append, List.cons.injEq] at e2
          have : [93] ∈ (w ++ [x, 45, y]).map (fun c => [c]) := by rw [e1, ← e2.1]; simp
          obtain ⟨c', hc', ec'⟩ := List.mem_map.1 this
          exact absurd ec' (plain c' hc').1
      · exact ⟨z, e1⟩
    have none_of : ∀ (w' : List Int) (r' : List Tok), (∀ c ∈ w', c ∈ w) → classNode ((w' ++ [x, 45, y]).map (fun c => [c]) ++ r') = none := by
      intro w' r' hs
      have := classItems_range hxy (w := w') ((w' ++ [x, 45, y]).map (fun c => [c]) ++ r').length r' (fun h => (hw _ (hs _ h)).2 rfl)
        (fun h => (hw _ (hs _ h)).1.1 rfl) hx1 hx.1 hy.1
      unfold classNode
      rw [show ((w' ++ [x, 45, y]).map (fun c => [c]) ++ r') = w'.map (fun c => [c]) ++ [x] :: [45] :: [y] :: r' by simp] at this ⊢
      rw [this]
    cases k with
    | tok _ h => exact absurd rfl h
    | @cls _ tl c r he hc hne hi =>
      rcases extractT_only (by decide) he with ⟨ec, _⟩ | ⟨rfl, rfl⟩
      · obtain ⟨r', rfl⟩ := hpre c r ec
        exact absurd (none_of w r' (fun _ h => h)) hc
      · exact absurd rfl hc
    | @ncls _ tl c r he hc hi =>
      rcases extractT_only (by decide) he with ⟨ec, _⟩ | ⟨rfl, rfl⟩
      · obtain ⟨r', er⟩ := hpre ([94] :: c) r (by rw [ec]; rfl)
        cases w with
        | nil => simp at er; exact absurd er.1.symm hx2
        | cons w0 w =>
          simp only [List.cons_append, List.map_cons, List.cons.injEq] at er
          rw [er.2] at hc
          exact absurd (none_of w r' (fun _ h => by simp [h])) hc
      · exact absurd rfl hc

end ERegex

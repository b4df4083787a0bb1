import Verif.Proofs.Suite
/-!
# The attempts of `\d*\w+abcd`

A repetition gives back to a repetition: `\d*` must give back its last digit when nothing else is left for `\w+`.
-/
set_option autoImplicit false
namespace ERegex
open Spec

/-- The largest `j ≤ n` such that `L` holds at `s + j`. -/
def lastHit (L : Nat → Bool) (s : Nat) : Nat → Option Nat
  | 0 => if L s then some 0 else none
  | n + 1 => if L (s + (n + 1)) then some (n + 1) else lastHit L s n

theorem lastHit_none {L : Nat → Bool} {s : Nat} : ∀ {n : Nat}, lastHit L s n = none ↔ ∀ j, j ≤ n → L (s + j) = false
  | 0 => by
    simp only [lastHit]
    constructor
    · intro h j hj
      obtain rfl : j = 0 := by omega
      simpa using h
    · intro h
      simpa using h 0 (Nat.le_refl _)
  | n + 1 => by
    simp only [lastHit]
    constructor
    · intro h j hj
      split at h
      · cases h
      · rename_i h0
        rcases Nat.lt_or_ge j (n + 1) with h1 | h1
        · exact lastHit_none.1 h j (by omega)
        · obtain rfl : j = n + 1 := by omega
          simpa using h0
    · intro h
      rw [if_neg (by simp [h (n + 1) (Nat.le_refl _)]), lastHit_none]
      exact fun j hj => h j (by omega)

theorem lastHit_list (L : Nat → Bool) (w s : Nat) : ∀ (n : Nat),
    ((List.range' s (n + 1)).reverse.flatMap (fun x => if L x then [x + w] else [])).head? = (lastHit L s n).map (fun j => s + j + w)
  | 0 => by
    have : (List.range' s (0 + 1)).reverse.flatMap (fun x => if L x then [x + w] else []) = if L s then [s + w] else [] := by simp [List.flatMap]
    rw [this, lastHit]
    split <;> simp
  | n + 1 => by
    rw [List.range'_1_concat, List.reverse_append, List.reverse_singleton, List.singleton_append, List.flatMap_cons, List.head?_append, lastHit_list L w s n, lastHit]
    split <;> simp

/-- The last part of a greedy repetition: the rest is tried once more. -/
def fin (T : K) : Option (Bool × St) → Option St
  | none => none
  | some (true, st) => some st
  | some (false, st) => T { st with accepted := true }

theorem greedy_fin (m : K) (lo hi : Nat) (T : M) (st : St) : greedyMatch m lo hi [T] [] st =
    match repLoop m lo st with
    | none => none
    | some (false, st1) => some st1
    | some (true, st1) =>
      match growLoop m (hi - lo) lo st1 with
      | none => none
      | some (k, st2) => fin (T []) (btLoop (T []) m st1.pos (k - lo) st2) := by
  have hd : greedyBacktrack [T] [] = T [] := rfl
  have hd' : dfs [T] [] = T [] := rfl
  simp only [greedyMatch, hd, hd']
  rcases repLoop m lo st with _ | ⟨_ | _, st1⟩
  · rfl
  · rfl
  · simp only
    rcases growLoop m (hi - lo) lo st1 with _ | ⟨k, st2⟩
    · rfl
    · simp only
      rcases btLoop (T []) m st1.pos (k - lo) st2 with _ | ⟨_ | _, st3⟩ <;> rfl

section
variable {cx : Ctx}

/-- `T` tests `L` at its position, takes `w` characters if it holds and stays where it is otherwise. -/
def Fixed (cx : Ctx) (T : K) (L : Nat → Bool) (w : Nat) : Prop :=
  ∀ (st : St) (p : Nat), st.pos = p → p ≤ cx.query.length →
    T st = some (if L p then { st with accepted := true, pos := ((p + w : Nat) : Int) } else { st with accepted := false })

/-- A repetition of a class in front of such a test gives back one character after the other. -/
theorem bt_fixed {T : K} {L : Nat → Bool} {w : Nat} (hT : Fixed cx T L w) {S : Int → Bool} {s : Nat} (hs : s ≤ cx.query.length) : ∀ (n : Nat) (st : St), st.pos = ((s + n : Nat) : Int) →
    InClass cx.query S s n →
    fin T (btLoop T (charStep cx S) (s : Int) n st) =
    some (match lastHit L s n with
      | some j => { st with accepted := true, pos := ((s + j + w : Nat) : Int) }
      | none => { st with accepted := false, pos := (s : Int) })
  | 0, st, hp, hin => by
    simp only [btLoop, lastHit, fin]
    rw [hT _ s (by simpa using hp) hs]
    cases L s <;> simp
    simpa using hp
  | n + 1, st, hp, hin => by
    have hle := inClass_len hin hs
    have h1 := inClass_add.1 hin
    simp only [btLoop, lastHit]
    rw [hT _ (s + (n + 1)) hp hle]
    cases hL : L (s + (n + 1)) with
    | true => simp [fin]
    | false =>
      simp only [Bool.false_eq_true, if_false]
      have e1 : (st.pos - (s : Int)).toNat = n + 1 := by omega
      have e2 : st.pos - 1 = ((s + n : Nat) : Int) := by omega
      rw [e1, e2, scan_char h1.2]
      simp only
      rw [bt_fixed hT hs n _ rfl h1.1]

/-- The end of the preferred match of `S+T` at `p`. -/
def plusEnd (q : List Int) (S : Int → Bool) (L : Nat → Bool) (w p : Nat) : Option Nat :=
  if runLen S (q.drop p) = 0 then none else (lastHit L (p + 1) (runLen S (q.drop p) - 1)).map (fun j => p + 1 + j + w)

theorem plusEnd_none {q : List Int} {S : Int → Bool} {L : Nat → Bool} {w p : Nat} :
    plusEnd q S L w p = none ↔ ∀ j, 1 ≤ j → InClass q S p j → L (p + j) = false := by
  unfold plusEnd
  by_cases h : runLen S (q.drop p) = 0
  · rw [if_pos h]
    refine ⟨fun _ j h1 h2 => ?_, fun _ => rfl⟩
    have := (inClass_runLen _ _ _ _).1 h2; omega
  · rw [if_neg h, Option.map_eq_none_iff, lastHit_none]
    constructor
    · intro hj j h1 h2
      have h3 := (inClass_runLen _ _ _ _).1 h2
      have := hj (j - 1) (by omega)
      have e : p + 1 + (j - 1) = p + j := by omega
      rwa [e] at this
    · intro hj j h1
      have e : p + 1 + j = p + (j + 1) := by omega
      rw [e]
      exact hj (j + 1) (by omega) ((inClass_runLen _ _ _ _).2 (by omega))

/-- What `S+T` does. -/
def plusState (q : List Int) (S : Int → Bool) (L : Nat → Bool) (w p : Nat) (st : St) : St :=
  match plusEnd q S L w p with
  | some e => { st with accepted := true, pos := (e : Int) }
  | none => { st with accepted := false, pos := if ck q p S then ((p + 1 : Nat) : Int) else (p : Int) }

theorem plus_run {T : M} {L : Nat → Bool} {w : Nat} (hT : Fixed cx (T []) L w) {S : Int → Bool} (hlen : cx.query.length < umax) {st : St} {p : Nat} (hp : st.pos = p) (hl : p ≤ cx.query.length) :
    greedyMatch (charStep cx S) 1 umax [T] [] st = some (plusState cx.query S L w p st) := by
  rw [greedy_fin]
  unfold plusState plusEnd
  by_cases h : InClass cx.query S p 1
  · have h1 : 1 ≤ runLen S (cx.query.drop p) := (inClass_runLen _ _ _ _).1 h
    rw [rep_yes 1 st p hp h]
    simp only [Nat.one_ne_zero, if_false]
    obtain ⟨d, d1, d2, d3, d4⟩ := grow_char (cx := cx) (p := S) (umax - 1) 1 { st with pos := ((p + 1 : Nat) : Int), accepted := true } (p + 1) rfl
    have hle := inClass_len d2 (inClass_len h hl)
    have hr : runLen S (cx.query.drop p) = 1 + d := by
      have h2 := (inClass_runLen _ _ _ _).1 (inClass_add.2 ⟨h, d2⟩)
      rcases Nat.lt_or_ge (1 + d) (runLen S (cx.query.drop p)) with h3 | h3
      · have := (inClass_runLen cx.query S p (1 + (d + 1))).2 (by omega)
        exact absurd (inClass_add.1 this).2 (d3 (by omega))
      · omega
    rw [d4]
    simp only [Nat.add_sub_cancel_left]
    have := bt_fixed hT (S := S) (s := p + 1) (by omega) d
      { st with pos := ((p + 1 + d : Nat) : Int), accepted := if umax - 1 = 0 then true else true } rfl d2
    simp only at this
    rw [this, if_neg (by omega), hr, Nat.add_sub_cancel_left, if_pos ((ck_run _ _ _).2 h1)]
    cases lastHit L (p + 1) d <;> rfl
  · have h0 : runLen S (cx.query.drop p) = 0 := by
      rcases Nat.eq_zero_or_pos (runLen S (cx.query.drop p)) with h1 | h1
      · exact h1
      · exact absurd ((inClass_runLen _ _ _ _).2 h1) h
    obtain ⟨d, d1, d2, d3⟩ := rep_no 1 st p hp h
    obtain rfl : d = 0 := by omega
    rw [d3, if_pos h0, if_neg (fun c => by have := (ck_run _ _ _).1 c; omega)]
    simp

/-- The end of the preferred match of `R*S+T` at `s`, if the characters of `R` are in `S` and `T` does not begin with one. -/
def starEnd (q : List Int) (R S : Int → Bool) (L : Nat → Bool) (w s : Nat) : Option Nat :=
  let d := runLen R (q.drop s)
  match plusEnd q S L w (s + d) with
  | some e => some e
  | none => if d = 0 then none else plusEnd q S L w (s + d - 1)

/-- Once the last character has been given back nothing changes any more. -/
theorem bt_stuck {I : K} {R S : Int → Bool} {L : Nat → Bool} {w : Nat} (hI : ∀ (st : St) (p : Nat), st.pos = p → p ≤ cx.query.length → I st = some (plusState cx.query S L w p st))
    (hRS : ∀ c, R c = true → S c = true) {s y : Nat} (hy : s ≤ y) (hin : InClass cx.query R y 1) : ∀ (n : Nat) (st : St), st.pos = (y : Int) →
    fin I (btLoop I (charStep cx R) (s : Int) n st) = some (plusState cx.query S L w y st)
  | 0, st, hp => by
    have := inClass_len hin
    obtain ⟨c, hc, hRc⟩ := hin 0 (by omega)
    have hlt := (List.getElem?_eq_some_iff.1 hc).1
    simp only [btLoop, fin]
    rw [hI { st with accepted := true } y hp (by omega)]
    unfold plusState
    split <;> rfl
  | n + 1, st, hp => by
    obtain ⟨c, hc, hRc⟩ := hin 0 (by omega)
    have hlt := (List.getElem?_eq_some_iff.1 hc).1
    have hck : ck cx.query y S = true := ck_iff.2 ⟨c, by simpa using hc, hRS c hRc⟩
    simp only [btLoop]
    rw [hI _ y hp (by omega)]
    cases he : plusEnd cx.query S L w y with
    | some e => simp [plusState, he, fin]
    | none =>
      have hps : plusState cx.query S L w y st = { st with accepted := false, pos := ((y + 1 : Nat) : Int) } := by simp [plusState, he, hck]
      rw [hps]
      simp only [Bool.false_eq_true, if_false]
      have e1 : (((y + 1 : Nat) : Int) - (s : Int)).toNat = (y - s) + 1 := by omega
      have e2 : ((y + 1 : Nat) : Int) - 1 = (y : Int) := by omega
      rw [e1, e2, scan_char hin]
      simp only
      have := bt_stuck hI hRS hy hin n { st with pos := (y : Int), accepted := true } rfl
      rw [this]
      simp [plusState, he, hck]

/-- What `R*S+T` does. -/
def starState (q : List Int) (R S : Int → Bool) (L : Nat → Bool) (w p : Nat) (st : St) : St :=
  match starEnd q R S L w p with
  | some e => { st with accepted := true, pos := (e : Int) }
  | none => { st with accepted := false, pos := if runLen R (q.drop p) = 0 then (if ck q p S then ((p + 1 : Nat) : Int) else (p : Int)) else ((p + runLen R (q.drop p) : Nat) : Int) }

theorem star_run {I : M} {R S : Int → Bool} {L : Nat → Bool} {w : Nat} (hI : ∀ (st : St) (p : Nat), st.pos = p → p ≤ cx.query.length → I [] st = some (plusState cx.query S L w p st))
    (hRS : ∀ c, R c = true → S c = true) (hlen : cx.query.length < umax) {st : St} {p : Nat} (hp : st.pos = p) (hl : p ≤ cx.query.length) :
    greedyMatch (charStep cx R) 0 umax [I] [] st = some (starState cx.query R S L w p st) := by
  rw [greedy_fin]
  simp only [repLoop]
  obtain ⟨d, d1, d2, d3, d4⟩ := grow_char (cx := cx) (p := R) (umax - 0) 0 st p hp
  have hle := inClass_len d2 hl
  have hr : runLen R (cx.query.drop p) = d := by
    have h2 := (inClass_runLen _ _ _ _).1 d2
    rcases Nat.lt_or_ge d (runLen R (cx.query.drop p)) with h3 | h3
    · have := (inClass_runLen cx.query R p (d + 1)).2 (by omega)
      exact absurd this (d3 (by omega))
    · omega
  rw [d4]
  simp only [Nat.zero_add, Nat.sub_zero, hp]
  have hu : umax ≠ 0 := by decide
  simp only [hu, if_false]
  unfold starState starEnd
  simp only [hr]
  cases d with
  | zero =>
    simp only [btLoop, fin]
    rw [hI _ p (by simp) hl]
    simp only [Nat.add_zero, if_true]
    unfold plusState
    cases plusEnd cx.query S L w p <;> rfl
  | succ d =>
    have h1 := inClass_add.1 d2
    obtain ⟨c, hc, hRc⟩ := h1.2 0 (by omega)
    simp only [btLoop]
    rw [hI _ (p + (d + 1)) rfl hle]
    cases he : plusEnd cx.query S L w (p + (d + 1)) with
    | some e => simp [plusState, he, fin]
    | none =>
      have hnot : ¬ InClass cx.query R (p + (d + 1)) 1 := fun h => d3 (by omega) (inClass_add.2 ⟨d2, h⟩)
      have hscan : ∀ st1 : St, scanBack (charStep cx R) ((if ck cx.query (p + (d + 1)) S then ((p + (d + 1) + 1 : Nat) : Int) else ((p + (d + 1) : Nat) : Int)) - (p : Int)).toNat
          ((if ck cx.query (p + (d + 1)) S then ((p + (d + 1) + 1 : Nat) : Int) else ((p + (d + 1) : Nat) : Int)) - 1) st1 =
          some { st1 with pos := ((p + d : Nat) : Int), accepted := true } := by
        intro st1
        cases ck cx.query (p + (d + 1)) S with
        | false =>
          simp only [Bool.false_eq_true, if_false]
          have e1 : (((p + (d + 1) : Nat) : Int) - (p : Int)).toNat = d + 1 := by omega
          have e2 : ((p + (d + 1) : Nat) : Int) - 1 = ((p + d : Nat) : Int) := by omega
          rw [e1, e2, scan_char h1.2]
        | true =>
          simp only [if_true]
          have e1 : (((p + (d + 1) + 1 : Nat) : Int) - (p : Int)).toNat = (d + 1) + 1 := by omega
          have e2 : ((p + (d + 1) + 1 : Nat) : Int) - 1 = ((p + (d + 1) : Nat) : Int) := by omega
          rw [e1, e2, scanBack, step_no rfl hnot]
          simp only [Bool.false_eq_true, if_false]
          have e3 : ((p + (d + 1) : Nat) : Int) - 1 = ((p + d : Nat) : Int) := by omega
          rw [e3, scan_char h1.2]
      simp only [plusState, he, Bool.false_eq_true, if_false]
      rw [hscan]
      simp only
      rw [bt_stuck hI hRS (s := p) (y := p + d) (by omega) h1.2 d _ rfl]
      have e4 : p + (d + 1) - 1 = p + d := by omega
      have hck : ck cx.query (p + d) S = true := ck_iff.2 ⟨c, by simpa using hc, hRS c hRc⟩
      simp only [Nat.add_one_ne_zero, if_false, e4]
      unfold plusState
      cases plusEnd cx.query S L w (p + d) <;> simp [hck, Nat.add_assoc]

end

/-- `R*S+T` never prefers anything else than `starEnd`: what is found after fewer repetitions of `R` is also found after the last but one. -/
theorem plusEnd_earlier {q : List Int} {R S : Int → Bool} {L : Nat → Bool} {w s d j : Nat} (hL : ∀ x c, L x = true → q[x]? = some c → R c = false)
    (hRd : InClass q R s d) (hj : j < d) (h : plusEnd q S L w (s + j) ≠ none) : plusEnd q S L w (s + d - 1) ≠ none := by
  intro hn
  rw [plusEnd_none] at hn
  apply h
  rw [plusEnd_none]
  intro i h1 h2
  rcases Nat.lt_or_ge (j + i) d with hlt | hge
  · obtain ⟨c, hc, hRc⟩ := hRd (j + i) hlt
    cases hb : L (s + j + i) with
    | false => rfl
    | true =>
      have := hL _ c hb (by rw [Nat.add_assoc]; exact hc)
      rw [hRc] at this; cases this
  · have e : s + d - 1 + (j + i - (d - 1)) = s + j + i := by omega
    rw [← e]
    refine hn _ (by omega) ?_
    have e2 : i = (d - 1 - j) + (j + i - (d - 1)) := by omega
    rw [e2] at h2
    have := (inClass_add.1 h2).2
    have e3 : s + j + (d - 1 - j) = s + d - 1 := by omega
    rwa [e3] at this

theorem plusEnd_later {q : List Int} {S : Int → Bool} {L : Nat → Bool} {w p k : Nat} (h : plusEnd q S L w p = none) (hk : InClass q S p k) : plusEnd q S L w (p + k) = none := by
  rw [plusEnd_none] at h ⊢
  intro j h1 h2
  rw [Nat.add_assoc]
  exact h (k + j) (by omega) (inClass_add.2 ⟨hk, h2⟩)

theorem starEnd_none {q : List Int} {R S : Int → Bool} {L : Nat → Bool} {w s : Nat} : starEnd q R S L w s = none ↔
    plusEnd q S L w (s + runLen R (q.drop s)) = none ∧ (runLen R (q.drop s) ≠ 0 → plusEnd q S L w (s + runLen R (q.drop s) - 1) = none) := by
  unfold starEnd
  simp only
  cases plusEnd q S L w (s + runLen R (q.drop s)) with
  | some e => simp
  | none =>
    simp only [true_and]
    by_cases h : runLen R (q.drop s) = 0
    · simp [h]
    · simp [h]

theorem runLen_later {q : List Int} {R : Int → Bool} {s i : Nat} (h : i ≤ runLen R (q.drop s)) : runLen R (q.drop (s + i)) = runLen R (q.drop s) - i := by
  have hi := (inClass_runLen q R s i).2 h
  have h1 : ∀ n, n ≤ runLen R (q.drop (s + i)) ↔ i + n ≤ runLen R (q.drop s) := by
    intro n
    rw [← inClass_runLen, ← inClass_runLen, inClass_add]
    exact ⟨fun h => ⟨hi, h⟩, fun h => h.2⟩
  have h2 := (h1 _).1 (Nat.le_refl _)
  have h3 := (h1 (runLen R (q.drop s) - i)).2 (by omega)
  omega

theorem inClass_sub {q : List Int} {R S : Int → Bool} (h : ∀ c, R c = true → S c = true) {s n : Nat} (hin : InClass q R s n) : InClass q S s n := by
  intro k hk
  obtain ⟨c, h1, h2⟩ := hin k hk
  exact ⟨c, h1, h c h2⟩

theorem firstSome_list {α : Type} (F : Nat → List α) (s : Nat) : ∀ (d : Nat), (∀ j, j < d → F (s + j) = []) → ∀ (G : Nat → List α), (∀ j, G j = F (s + j)) →
    ((List.range' 0 d).reverse.flatMap G) = []
  | 0, _, _, _ => rfl
  | d + 1, h, G, hG => by
    rw [List.range'_1_concat, List.reverse_append, List.reverse_singleton, List.singleton_append, List.flatMap_cons, Nat.zero_add, hG, h d (by omega),
      firstSome_list F s d (fun j hj => h j (by omega)) G hG]
    rfl

/-- The ends of the matches of `R*` followed by `rest`. -/
theorem star_head {q : List Int} {a : Atom} {rest : Sq} {S : Int → Bool} {L : Nat → Bool} {w : Nat} (hrest : ∀ x, (rest.picks q x).head? = plusEnd q S L w x)
    (hL : ∀ x c, L x = true → q[x]? = some c → a.set c = false) (s : Nat) : ((Sq.cons a (.star .greedy) rest).picks q s).head? = starEnd q a.set S L w s := by
  rw [Sq.picks]
  unfold starEnd
  have hc : (Quant.star .greedy).counts (runLen a.set (q.drop s)) = (List.range' 0 (runLen a.set (q.drop s) + 1)).reverse := by
    simp [Quant.counts, Quant.mode, Quant.lo, Quant.top, Quant.hi]
  rw [hc, List.range'_1_concat, List.reverse_append, List.reverse_singleton, List.singleton_append, List.flatMap_cons, List.head?_append, Nat.zero_add, hrest]
  have hnil : ∀ x, plusEnd q S L w x = none → rest.picks q x = [] := by
    intro x hx
    have := hrest x
    rw [hx] at this
    exact List.head?_eq_none_iff.1 this
  have hd := (inClass_runLen q a.set s _).2 (Nat.le_refl (runLen a.set (q.drop s)))
  generalize runLen a.set (q.drop s) = d at hd
  cases he : plusEnd q S L w (s + d) with
  | some e => simp [he]
  | none =>
    simp only [Option.none_or, he]
    cases d with
    | zero => rfl
    | succ d =>
      rw [List.range'_1_concat, List.reverse_append, List.reverse_singleton, List.singleton_append, List.flatMap_cons, List.head?_append, Nat.zero_add, hrest,
        if_neg (by omega)]
      have e4 : s + (d + 1) - 1 = s + d := by omega
      rw [e4]
      cases he2 : plusEnd q S L w (s + d) with
      | some e => rfl
      | none =>
        rw [firstSome_list (fun x => rest.picks q x) s d (fun j hj => hnil _ (Classical.byContradiction (fun h => ?_))) _ (fun _ => rfl)]
        · rfl
        · exact plusEnd_earlier hL hd (by omega) h (by rw [e4]; exact he2)

theorem plus_head {q : List Int} {a : Atom} {rest : Sq} {L : Nat → Bool} {w : Nat} (hrest : ∀ x, rest.picks q x = if L x then [x + w] else []) (p : Nat) :
    ((Sq.cons a (.plus .greedy) rest).picks q p).head? = plusEnd q a.set L w p := by
  rw [Sq.picks]
  unfold plusEnd
  have hc : (Quant.plus .greedy).counts (runLen a.set (q.drop p)) = (List.range' 1 (runLen a.set (q.drop p))).reverse := by
    simp [Quant.counts, Quant.mode, Quant.lo, Quant.top, Quant.hi]
  rw [hc]
  generalize runLen a.set (q.drop p) = r
  cases r with
  | zero => rfl
  | succ r =>
    rw [if_neg (by omega), Nat.add_sub_cancel]
    have h1 := lastHit_list L w (p + 1) r
    rw [← h1]
    have h2 : List.range' (p + 1) (r + 1) = (List.range' 1 (r + 1)).map (fun n => p + n) := by
      have := List.map_add_range' (a := p) (s := 1) (n := r + 1) (step := 1)
      exact this.symm
    rw [h2, ← List.map_reverse, List.flatMap_map]
    simp only [hrest]

/-- `abcd`, compiled -/
def abcdN : Node := .simple (.exact [97] [97]) [.simple (.exact [98] [98]) [.simple (.exact [99] [99]) [.exact [100] [100]]]]
/-- `\w+abcd`, compiled -/
def wordsN : Node := .greedy .word 1 4294967295 [abcdN]
/-- `\d*\w+abcd`, compiled -/
def digitsN : Node := .greedy (.range 48 57 [91, 48, 45, 57, 93]) 0 4294967295 [wordsN]

/-- `abcd` -/
def abcdS : Sq := .cons (.chr 97) .once (.cons (.chr 98) .once (.cons (.chr 99) .once (.cons (.chr 100) .once (.nil false))))
/-- `\d*\w+abcd` -/
def digitsS : Sq := .cons (.esc 100) (.star .greedy) (.cons (.esc 119) (.plus .greedy) abcdS)

/-- `abcd` stands at `p`. -/
def abcdAt (q : List Int) (p : Nat) : Bool :=
  ck q p (Atom.chr 97).set && (ck q (p + 1) (Atom.chr 98).set && (ck q (p + 2) (Atom.chr 99).set && ck q (p + 3) (Atom.chr 100).set))

theorem abcd_picks (q : List Int) (x : Nat) : abcdS.picks q x = if abcdAt q x then [x + 4] else [] := by
  rw [abcdS, picks_once, picks_once, picks_once, picks_once]
  simp only [abcdAt, Sq.picks, Nat.add_assoc, Nat.reduceAdd]
  by_cases h1 : ck q x (Atom.chr 97).set = true
  · by_cases h2 : ck q (x + 1) (Atom.chr 98).set = true
    · by_cases h3 : ck q (x + 2) (Atom.chr 99).set = true
      · simp [h1, h2, h3]
      · simp [h1, h2, h3]
    · simp [h1, h2]
  · simp [h1]

theorem abcd_fixed (cx : Ctx) : Fixed cx (run cx abcdN []) (abcdAt cx.query) 4 := by
  intro st p hp hl
  simp only [abcdN, run.eq_def (cx := cx) (.simple (.exact [97] [97]) _), runs, simpleMatch, dfs]
  rw [charStep_of (m := .exact [97] [97]) rfl, step_ck hp hl, ck_congr (test_exact 97 _)]
  unfold abcdAt
  have s97 : (Atom.chr 97).set = fun c => c == 97 := rfl
  have s98 : (Atom.chr 98).set = fun c => c == 98 := rfl
  have s99 : (Atom.chr 99).set = fun c => c == 99 := rfl
  have s100 : (Atom.chr 100).set = fun c => c == 100 := rfl
  rw [s97, s98, s99, s100]
  cases h1 : ck cx.query p (fun c => c == 97) with
  | false => simp
  | true =>
    simp only [if_true, Bool.true_and]
    rw [three_run rfl rfl rfl [] (p := p + 1) rfl (ck_lt h1), ck_congr (test_exact 98 _), ck_congr (test_exact 99 _), ck_congr (test_exact 100 _)]
    simp only [Nat.add_assoc, Nat.reduceAdd]
    cases h2 : (ck cx.query (p + 1) (fun c => c == 98) && (ck cx.query (p + 2) (fun c => c == 99) && ck cx.query (p + 3) (fun c => c == 100)))
    · simp [hp]
    · simp

theorem digits_attempts (cx : Ctx) (hlen : cx.query.length < 4294967295) : AttemptsG cx digitsN (fun x => digitsS.picks cx.query x ≠ [])
    (fun s st => (digitsS.picks cx.query s).head? = some (off st)) := by
  refine attempts_picks (F := fun x => digitsS.picks cx.query x) (safeTree (nul := false) (by simp) (by decide +kernel) (by decide +kernel)) ?_
  intro st p hp hs hl
  have hW : testOf .word = (Atom.esc 119).set := by
    funext c
    simp only [testOf, wordTest, Atom.set, escape]
    simp
    grind
  have hD : testOf (.range 48 57 [91, 48, 45, 57, 93]) = (Atom.esc 100).set := by
    funext c
    rw [test_range]
    simp [Atom.set, escape]
  have hI : ∀ (st : St) (p : Nat), st.pos = p → p ≤ cx.query.length →
      run cx wordsN [] st = some (plusState cx.query (Atom.esc 119).set (abcdAt cx.query) 4 p st) := by
    intro st p hp hl
    rw [wordsN, run_greedy_loop cx _ (by decide), runs_one, charStep_of (m := .word) rfl, hW]
    exact plus_run (abcd_fixed cx) hlen hp hl
  have hRS : ∀ c, (Atom.esc 100).set c = true → (Atom.esc 119).set c = true := by
    intro c h
    simp only [Atom.set, escape] at h ⊢
    simp at h ⊢
    omega
  have hL : ∀ x c, abcdAt cx.query x = true → cx.query[x]? = some c → (Atom.esc 100).set c = false := by
    intro x c h1 h2
    simp only [abcdAt, Bool.and_eq_true] at h1
    obtain ⟨c', h3, h4⟩ := ck_iff.1 h1.1
    rw [h2] at h3; cases h3
    have : c = 97 := by simpa [Atom.set] using h4
    subst this; decide
  have hhead : ∀ x, (digitsS.picks cx.query x).head? = starEnd cx.query (Atom.esc 100).set (Atom.esc 119).set (abcdAt cx.query) 4 x :=
    fun x => star_head (fun y => plus_head (abcd_picks cx.query) y) hL x
  have hrun : run cx digitsN [] st = some (starState cx.query (Atom.esc 100).set (Atom.esc 119).set (abcdAt cx.query) 4 p st) := by
    rw [digitsN, run_greedy_loop cx _ (by decide), runs_one, charStep_of (m := .range 48 57 _) rfl, hD]
    exact star_run hI hRS hlen hp hl
  have hnone : ∀ x, starEnd cx.query (Atom.esc 100).set (Atom.esc 119).set (abcdAt cx.query) 4 x = none → digitsS.picks cx.query x = [] := by
    intro x hx
    rw [← hhead] at hx
    exact List.head?_eq_none_iff.1 hx
  refine ⟨_, hrun, fun ha => ?_, fun ha x h1 h2 => ?_, fun ha => ?_⟩
  · show (digitsS.picks cx.query p).head? = _
    rw [hhead]
    unfold starState at ha ⊢
    cases he : starEnd cx.query (Atom.esc 100).set (Atom.esc 119).set (abcdAt cx.query) 4 p with
    | none => rw [he] at ha; cases ha
    | some e => simp [off]
  · refine hnone x ?_
    unfold starState at ha h2
    cases he : starEnd cx.query (Atom.esc 100).set (Atom.esc 119).set (abcdAt cx.query) 4 p with
    | some e => rw [he] at ha; cases ha
    | none =>
      rw [he] at h2
      simp only [off] at h2
      obtain ⟨n1, n2⟩ := starEnd_none.1 he
      by_cases hd : runLen (Atom.esc 100).set (cx.query.drop p) = 0
      · rw [if_pos hd] at h2
        rw [hd, Nat.add_zero] at n1
        by_cases hx : x = p
        · rw [hx]; exact he
        · have hck : ck cx.query p (Atom.esc 119).set = true := by
            cases h : ck cx.query p (Atom.esc 119).set with
            | true => rfl
            | false => rw [h] at h2; simp at h2; omega
          have hx1 : x = p + 1 := by rw [hck] at h2; simp at h2; omega
          subst hx1
          have hin := inClass_sub hRS ((inClass_runLen cx.query (Atom.esc 100).set (p + 1) _).2 (Nat.le_refl _))
          have h1 := (inClass_runLen cx.query (Atom.esc 119).set p 1).2 ((ck_run _ _ _).1 hck)
          rw [starEnd_none]
          have n3 := inClass_add.2 ⟨h1, hin⟩
          refine ⟨?_, fun _ => ?_⟩
          · rw [Nat.add_assoc]; exact plusEnd_later n1 n3
          · have e : p + 1 + runLen (Atom.esc 100).set (cx.query.drop (p + 1)) - 1 = p + runLen (Atom.esc 100).set (cx.query.drop (p + 1)) := by omega
            rw [e]
            exact plusEnd_later n1 (inClass_mono n3 (by omega))
      · rw [if_neg hd] at h2
        obtain ⟨i, rfl⟩ : ∃ i, x = p + i := ⟨x - p, by omega⟩
        have hi : i ≤ runLen (Atom.esc 100).set (cx.query.drop p) := by omega
        rw [starEnd_none, runLen_later hi]
        have e : p + i + (runLen (Atom.esc 100).set (cx.query.drop p) - i) = p + runLen (Atom.esc 100).set (cx.query.drop p) := by omega
        rw [e]
        exact ⟨n1, fun _ => n2 hd⟩
  · unfold starState at ha ⊢
    cases he : starEnd cx.query (Atom.esc 100).set (Atom.esc 119).set (abcdAt cx.query) 4 p with
    | some e => rw [he] at ha; cases ha
    | none =>
      simp only [off]
      split
      · split <;> omega
      · omega

end ERegex

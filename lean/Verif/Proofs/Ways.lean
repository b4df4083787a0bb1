import Verif.Spec.Backtrack
import Verif.Proofs.PreferRun
/-!
# The backtracking specification on regular patterns

For one-character parts and groups that are not nested the list of ways has a simple shape.
-/
set_option autoImplicit false
namespace ERegex
open ERegex.Spec ERegex.Props

/-- Consecutive groups from number `n` on capture the spans of `l`. -/
def fill (c : Caps) : Nat → List (Nat × Nat) → Caps
  | _, [] => c
  | n, x :: l => fill (c.with n x.1 x.2) (n + 1) l

theorem fill_low : ∀ (l : List (Nat × Nat)) (c : Caps) (n k : Nat), k < n → fill c n l k = c k
  | [], c, n, k, _ => rfl
  | x :: l, c, n, k, h => by
    rw [fill, fill_low l _ _ _ (by omega)]
    simp [Caps.with]; omega

theorem fill_at : ∀ (l : List (Nat × Nat)) (c : Caps) (n j : Nat), j < l.length → fill c n l (n + j) = l[j]?
  | [], c, n, j, h => by simp at h
  | x :: l, c, n, 0, h => by
    rw [fill, Nat.add_zero, fill_low _ _ _ _ (by omega)]
    simp [Caps.with]
  | x :: l, c, n, j + 1, h => by
    simp only [List.length_cons] at h
    rw [fill, show n + (j + 1) = n + 1 + j by omega, fill_at l _ _ _ (by omega)]
    simp

theorem with_comm (c : Caps) {n m : Nat} (h : n ≠ m) (a b a' b' : Nat) : (c.with n a b).with m a' b' = (c.with m a' b').with n a b := by
  funext k
  simp only [Caps.with]
  split <;> split <;> simp_all

theorem one_run (q : List Int) (S : Int → Bool) (i : Nat) (c : Caps) :
    one q S i c = if 1 ≤ runLen S (q.drop i) then [(i + 1, c)] else [] := by
  unfold one
  have h1 : (1 ≤ runLen S (q.drop i)) ↔ ∃ x, q[i]? = some x ∧ S x = true := by
    rw [← inClass_runLen]
    constructor
    · intro h; obtain ⟨x, hx, hs⟩ := h 0 (by omega); exact ⟨x, by simpa using hx, hs⟩
    · rintro ⟨x, hx, hs⟩; exact inClass_one hx hs
  cases hq : q[i]? with
  | none => simp [h1, hq]
  | some x =>
    by_cases hs : S x = true
    · rw [if_pos (h1.2 ⟨x, hq, hs⟩)]; simp [hs]
    · rw [if_neg (fun h => by obtain ⟨y, hy, hs'⟩ := h1.1 h; rw [hq] at hy; cases hy; exact hs hs')]
      simp [hs]

theorem run_next {q : List Int} {S : Int → Bool} {i : Nat} (h : 1 ≤ runLen S (q.drop i)) :
    runLen S (q.drop i) = runLen S (q.drop (i + 1)) + 1 := by
  have h1 := (inClass_runLen q S i 1).2 h
  have h2 : ∀ n, n + 1 ≤ runLen S (q.drop i) ↔ n ≤ runLen S (q.drop (i + 1)) := by
    intro n
    rw [← inClass_runLen, ← inClass_runLen, Nat.add_comm n 1, inClass_add]
    exact ⟨fun h => h.2, fun h => ⟨h1, h⟩⟩
  have a := (h2 (runLen S (q.drop (i + 1)))).2 (Nat.le_refl _)
  have b := (h2 (runLen S (q.drop i) - 1)).1 (by omega)
  omega

theorem must_one (q : List Int) (S : Int → Bool) : ∀ (n i : Nat) (c : Caps),
    must (one q S) n (i, c) = if n ≤ runLen S (q.drop i) then [(i + n, c)] else []
  | 0, i, c => by simp [must]
  | n + 1, i, c => by
    rw [must, one_run]
    by_cases h : 1 ≤ runLen S (q.drop i)
    · rw [if_pos h, List.flatMap_cons, List.flatMap_nil, List.append_nil, must_one q S n (i + 1) c, run_next h]
      simp only [Nat.add_le_add_iff_right, Nat.add_assoc, Nat.add_comm 1 n]
    · rw [if_neg h, if_neg (by omega)]; simp

theorem range_shift (a N : Nat) : List.range' a N = (List.range' 0 N).map (fun n => a + n) := by
  have := List.map_add_range' (a := a) (s := 0) (n := N) (step := 1)
  simpa using this.symm

theorem many_one (q : List Int) (S : Int → Bool) : ∀ (f i : Nat) (c : Caps),
    manyMost (one q S) f (i, c) = (List.range' 0 (min f (runLen S (q.drop i)) + 1)).reverse.map (fun n => (i + n, c))
  | 0, i, c => by simp [manyMost]
  | f + 1, i, c => by
    rw [manyMost]
    by_cases h : 1 ≤ runLen S (q.drop i)
    · simp only [one_run, if_pos h]
      have : ([((i + 1, c) : Way)].filter (fun v => decide (i < v.1))) = [(i + 1, c)] := by simp
      rw [this, List.flatMap_cons, List.flatMap_nil, List.append_nil, many_one q S f (i + 1) c, run_next h,
        show min (f + 1) (runLen S (q.drop (i + 1)) + 1) = min f (runLen S (q.drop (i + 1))) + 1 by omega, List.range'_succ (s := 0) (n := min f (runLen S (q.drop (i + 1))) + 1)]
      simp only [List.reverse_cons, List.map_append, List.map_cons, List.map_nil, Nat.add_zero, Nat.zero_add]
      congr 1
      rw [range_shift 1]
      simp only [List.map_reverse, List.map_map]
      congr 2
      funext n
      simp only [Function.comp, Prod.mk.injEq, and_true]
      omega
    · simp only [one_run, if_neg h]
      have : runLen S (q.drop i) = 0 := by omega
      simp [this]

theorem few_one (q : List Int) (S : Int → Bool) : ∀ (f i : Nat) (c : Caps),
    manyLeast (one q S) f (i, c) = (List.range' 0 (min f (runLen S (q.drop i)) + 1)).map (fun n => (i + n, c))
  | 0, i, c => by simp [manyLeast]
  | f + 1, i, c => by
    rw [manyLeast]
    by_cases h : 1 ≤ runLen S (q.drop i)
    · simp only [one_run, if_pos h]
      have : ([((i + 1, c) : Way)].filter (fun v => decide (i < v.1))) = [(i + 1, c)] := by simp
      rw [this, List.flatMap_cons, List.flatMap_nil, List.append_nil, few_one q S f (i + 1) c, run_next h,
        show min (f + 1) (runLen S (q.drop (i + 1)) + 1) = min f (runLen S (q.drop (i + 1))) + 1 by omega, List.range'_succ (s := 0) (n := min f (runLen S (q.drop (i + 1))) + 1)]
      simp only [List.map_cons, Nat.add_zero, Nat.zero_add]
      congr 1
      rw [range_shift 1]
      simp only [List.map_map]
      congr 2
      funext n
      simp only [Function.comp, Prod.mk.injEq, and_true]
      omega
    · simp only [one_run, if_neg h]
      have : runLen S (q.drop i) = 0 := by omega
      simp [this]

theorem runLen_drop_le (q : List Int) (S : Int → Bool) (i : Nat) : runLen S (q.drop i) ≤ q.length := by
  unfold runLen
  have h := (List.takeWhile_prefix S (l := q.drop i)).length_le
  simp only [List.length_drop] at h
  omega

/-- The ways of a quantified character class. -/
theorem quant_one (q : List Int) (S : Int → Bool) (k : Quant) (hk : k.sane = true) (i : Nat) (c : Caps) :
    k.ways q.length (one q S) (i, c) = (k.counts (runLen S (q.drop i))).map (fun n => (i + n, c)) := by
  have hs : ∀ h, k.hi = some h → k.lo ≤ h := by
    intro h e
    unfold Quant.sane at hk
    rw [e] at hk
    simp at hk
    exact hk.2.1
  have hmin : k.lo ≤ runLen S (q.drop i) → k.lo + min (k.extra q.length) (runLen S (q.drop (i + k.lo))) = k.top (runLen S (q.drop i)) := by
    intro h
    have e : runLen S (q.drop i) = k.lo + runLen S (q.drop (i + k.lo)) := by
      have hin := (inClass_runLen q S i k.lo).2 h
      have h2 : ∀ n, k.lo + n ≤ runLen S (q.drop i) ↔ n ≤ runLen S (q.drop (i + k.lo)) := by
        intro n
        rw [← inClass_runLen, ← inClass_runLen, inClass_add]
        exact ⟨fun h => h.2, fun h => ⟨hin, h⟩⟩
      have a := (h2 (runLen S (q.drop (i + k.lo)))).2 (Nat.le_refl _)
      have b := (h2 (runLen S (q.drop i) - k.lo)).1 (by omega)
      omega
    unfold Quant.extra Quant.top
    cases hh : k.hi with
    | none =>
      have := runLen_drop_le q S (i + k.lo)
      simp only
      omega
    | some x => have := hs x hh; simp only; omega
  by_cases h : k.lo ≤ runLen S (q.drop i)
  · have hm := hmin h
    have hle : k.lo ≤ k.top (runLen S (q.drop i)) := by omega
    have e0 : k.top (runLen S (q.drop i)) + 1 - k.lo = min (k.extra q.length) (runLen S (q.drop (i + k.lo))) + 1 := by omega
    have most : (must (one q S) k.lo (i, c)).flatMap (manyMost (one q S) (k.extra q.length)) =
        ((List.range' k.lo (k.top (runLen S (q.drop i)) + 1 - k.lo)).reverse).map (fun n => (i + n, c)) := by
      rw [must_one, if_pos h, List.flatMap_cons, List.flatMap_nil, List.append_nil, many_one, e0, range_shift k.lo]
      simp [← List.map_reverse, Function.comp_def, Nat.add_assoc]
    unfold Quant.ways Quant.counts
    cases hmo : k.mode with
    | greedy => simp only [most]
    | lazy =>
      simp only
      rw [must_one, if_pos h, List.flatMap_cons, List.flatMap_nil, List.append_nil, few_one, e0, range_shift k.lo]
      simp [Function.comp_def, Nat.add_assoc]
    | possessive =>
      simp only [most, if_pos hle]
      rw [e0, List.range'_concat, List.reverse_append]
      simp only [List.reverse_cons, List.reverse_nil, List.nil_append, List.cons_append, List.map_cons, List.take_succ_cons, List.take_zero, List.map_nil]
      rw [← hm]; simp
  · have hno : k.counts (runLen S (q.drop i)) = [] := by
      have := counts_nil (k := k) (a := runLen S (q.drop i)) (f := fun n => [n]) (fun m hm hm2 => absurd hm.1 (by omega))
      simpa using this
    rw [hno]
    unfold Quant.ways
    rw [must_one, if_neg h]
    cases k.mode <;> simp

/-! ## sequences without groups -/

/-- One-character atoms with sensible bounds. -/
def flat : Sq → Bool
  | .nil _ => true
  | .cons a k s => (a.steady || a.skips) && k.sane && flat s

theorem flat_regular : ∀ (s : Sq), s.regular = true → flat s = true
  | .nil _, _ => rfl
  | .cons a k s, h => by
    simp only [Sq.regular, Bool.and_eq_true] at h
    simp only [flat, Bool.and_eq_true]
    exact ⟨⟨h.1.1.1.2, h.1.1.2⟩, flat_regular s h.2⟩

/-- The same for alternatives. -/
def flats : Alts → Bool
  | .last _ s => flat s
  | .more _ s as => flat s && flats as

theorem flats_list : ∀ (as : Alts), (∀ b ∈ as.list, flat b = true) → flats as = true
  | .last _ s, h => h s (by simp [Alts.list])
  | .more _ s as, h => by
    simp only [flats, Bool.and_eq_true]
    exact ⟨h s (by simp [Alts.list]), flats_list as (fun b hb => h b (by simp [Alts.list, hb]))⟩

theorem atom_ways {a : Atom} (h : (a.steady || a.skips) = true) (q : List Int) (n : Nat) : a.ways q n = one q a.set ∧ a.count = 0 := by
  refine ⟨?_, ?_⟩
  · funext i c
    cases a <;> simp_all [Atom.ways, Atom.steady, Atom.skips]
  · cases a <;> simp_all [Atom.count, Atom.steady, Atom.skips]

theorem sq_ways : ∀ (s : Sq), flat s = true → ∀ (q : List Int) (n i : Nat) (c : Caps),
    s.ways q n i c = (s.picks q i).map (fun e => (e, c)) ∧ s.count = 0
  | .nil d, _, q, n, i, c => by simp [Sq.ways, Sq.count]
  | .cons a k s, h, q, n, i, c => by
    simp only [flat, Bool.and_eq_true] at h
    obtain ⟨h1, h2⟩ := atom_ways h.1.1 q n
    have h3 := sq_ways s h.2 q
    refine ⟨?_, by simp [Sq.count, h2, (h3 0 0 c).2]⟩
    rw [Sq.ways, h1, quant_one q a.set k h.1.2, List.flatMap_map]
    simp only [(h3 _ _ _).1]
    rw [Sq.picks, List.map_flatMap]

theorem alts_ways : ∀ (as : Alts), flats as = true → ∀ (q : List Int) (n i : Nat) (c : Caps),
    as.ways q n i c = (as.picks q i).map (fun e => (e, c)) ∧ as.count = 0
  | .last hat s, h, q, n, i, c => by
    obtain ⟨h1, h2⟩ := sq_ways s h q n i c
    simp only [Alts.ways, Alts.picks, hatPicks, Alts.count, h2, h1, and_true]
    split <;> simp
  | .more hat s as, h, q, n, i, c => by
    simp only [flats, Bool.and_eq_true] at h
    obtain ⟨h1, h2⟩ := sq_ways s h.1 q n i c
    obtain ⟨h3, h4⟩ := alts_ways as h.2 q (n + s.count) i c
    simp only [Alts.ways, Alts.picks, hatPicks, Alts.count, h2, h1, h4, List.map_append, and_true]
    rw [h2] at h3
    rw [h3]
    split <;> simp

/-! ## sequences with groups -/

/-- `n` repetitions: begin and end of the last one. -/
def mustS (body : Nat → List Nat) : Nat → Nat × Nat → List (Nat × Nat)
  | 0, p => [p]
  | n + 1, p => (body p.2).flatMap (fun e => mustS body n (p.2, e))

/-- At most `f` further repetitions. -/
def manyS (body : Nat → List Nat) : Nat → Nat × Nat → List (Nat × Nat)
  | 0, p => [p]
  | f + 1, p => (body p.2).flatMap (fun e => manyS body f (p.2, e)) ++ [p]

/-- The last repetition of a quantified group (not lazy, unless the number is fixed). -/
def spans (len : Nat) (k : Quant) (body : Nat → List Nat) (i : Nat) : List (Nat × Nat) :=
  let most := (mustS body k.lo (i, i)).flatMap (manyS body (k.extra len))
  match k.mode with
  | .possessive => most.take 1
  | _ => most

/-- Ends and the spans of the capturing groups, best first. -/
def caps (q : List Int) : Sq → Nat → List (Nat × List (Nat × Nat))
  | .nil d, i => ((Sq.nil d).picks q i).map (fun e => (e, []))
  | .cons (.group capture as) k s, i =>
    (spans q.length k (as.picks q) i).flatMap (fun p => (caps q s p.2).map (fun r => (r.1, if capture then p :: r.2 else r.2)))
  | .cons a k s, i => (k.counts (runLen a.set (q.drop i))).flatMap (fun n => caps q s (i + n))

theorem spans_once (len : Nat) (body : Nat → List Nat) (i : Nat) : spans len .once body i = (body i).map (fun e => (i, e)) := by
  have e : manyS body 0 = fun w => [w] := by funext w; rfl
  simp only [spans, Quant.mode, Quant.lo, Quant.extra, Quant.hi, mustS, Nat.sub_self, e]
  simp only [List.flatMap_assoc, List.flatMap_cons, List.flatMap_nil, List.append_nil]
  rw [List.map_eq_flatMap]

theorem caps_once (q : List Int) (capture : Bool) (as : Alts) (s : Sq) (i : Nat) : caps q (.cons (.group capture as) .once s) i =
    (as.picks q i).flatMap (fun e => (caps q s e).map (fun r => (r.1, if capture then (i, e) :: r.2 else r.2))) := by
  rw [caps, spans_once, List.flatMap_map]

/-- A quantified group whose repetitions the specification and the library treat alike. -/
def repShallow (capture : Bool) (as : Alts) (k : Quant) : Bool :=
  flats as && as.list.all Sq.eats && (!capture || k.lo != 0) && (match k.mode with | .lazy => k.fixed | _ => true)

/-- The groups of the sequence are not nested. -/
def shallow : Sq → Bool
  | .nil _ => true
  | .cons (.group _ as) .once s => flats as && shallow s
  | .cons (.group capture as) k s => repShallow capture as k && shallow s
  | .cons a k s => (a.steady || a.skips) && k.sane && shallow s

theorem body_flats {as : Alts} (h : as.list.all (fun b => b.regular && !b.empty && decide (b.least < 4294967296)) = true) : flats as = true := by
  simp only [List.all_eq_true, Bool.and_eq_true] at h
  exact flats_list as (fun b hb => flat_regular b (h b hb).1.1)

theorem group_flats {capture : Bool} {as : Alts} {s : Sq} (h : groupOk capture as s = true) : flats as = true := by
  have hb : ∀ {capture as}, bodyOk capture as s = true → flats as = true := by
    intro capture as h
    simp only [bodyOk, Bool.and_eq_true] at h
    exact body_flats h.1.1.2
  unfold groupOk at h
  split at h
  · split at h
    · exact hb h
    · simp only [loopOk, Bool.and_eq_true] at h
      simp only [flats, flat, Bool.and_true, Bool.and_eq_true]
      exact ⟨h.1.1.2, h.1.2⟩
  · exact hb h

theorem rep_shallow {capture : Bool} {as : Alts} {k : Quant} {s : Sq} (h : repOk capture as k s = true) : repShallow capture as k = true := by
  simp only [repOk, Bool.and_eq_true, List.all_eq_true] at h
  simp only [repShallow, Bool.and_eq_true, List.all_eq_true]
  refine ⟨⟨⟨flats_list as (fun b hb => flat_regular b (h.1.1.1.1.1.2 b hb).1.1.1), fun b hb => (h.1.1.1.1.1.2 b hb).2⟩, h.1.1.2⟩, ?_⟩
  cases hm : k.mode with
  | lazy => rw [hm] at h; simp only [Bool.and_eq_true] at h; exact h.2.1
  | _ => rfl

theorem shallow_group {capture : Bool} {as : Alts} {k : Quant} {s : Sq} (h : shallow (.cons (.group capture as) k s) = true) :
    flats as = true ∧ shallow s = true ∧ (k = .once ∨ repShallow capture as k = true) := by
  by_cases hk : k = .once
  · subst hk; simp only [shallow, Bool.and_eq_true] at h; exact ⟨h.1, h.2, Or.inl rfl⟩
  · have h' : repShallow capture as k = true ∧ shallow s = true := by
      cases k <;> first | exact absurd rfl hk | simpa only [shallow, Bool.and_eq_true] using h
    refine ⟨?_, h'.2, Or.inr h'.1⟩
    have := h'.1
    simp only [repShallow, Bool.and_eq_true] at this
    exact this.1.1.1

theorem capOk_shallow : ∀ (s : Sq), s.capOk = true → shallow s = true
  | .nil _, _ => rfl
  | .cons (.group capture as) k s, h => by
    cases k with
    | once =>
      simp only [Sq.capOk, Bool.and_eq_true] at h
      simp only [shallow, Bool.and_eq_true]
      exact ⟨group_flats h.1, capOk_shallow s h.2⟩
    | star | plus | opt | exact | atLeast | between =>
      simp only [Sq.capOk, Bool.and_eq_true] at h
      simp only [shallow, Bool.and_eq_true]
      exact ⟨rep_shallow h.1, capOk_shallow s h.2⟩
  | .cons (.chr _) k s, h | .cons (.esc _) k s, h | .cons .dot k s, h | .cons (.hex ..) k s, h | .cons (.oct ..) k s, h
  | .cons (.cls ..) k s, h => by
    simp only [Sq.capOk, Bool.and_eq_true] at h
    simp only [shallow, Bool.and_eq_true]
    exact ⟨⟨h.1.1.1.2, h.1.1.2⟩, capOk_shallow s h.2⟩

theorem quant_once (len : Nat) (body : Nat → Caps → List Way) (i : Nat) (c : Caps) : Quant.ways len .once body (i, c) = body i c := by
  simp only [Quant.ways, Quant.mode, Quant.lo, Quant.extra, Quant.hi, must, Nat.sub_self]
  have e : manyMost body 0 = fun w => [w] := by funext w; rfl
  have e' : must body 0 = fun w => [w] := by funext w; rfl
  simp [e, e']

/-! ### quantified groups -/

theorem picks_ge (q : List Int) : ∀ (s : Sq) (i e : Nat), e ∈ s.picks q i → i ≤ e
  | .nil false, i, e, h => by simp [Sq.picks] at h; omega
  | .nil true, i, e, h => by
    simp only [Sq.picks] at h
    split at h
    · simp at h; omega
    · split at h
      · simp at h; omega
      · simp at h
  | .cons a k s, i, e, h => by
    simp only [Sq.picks, List.mem_flatMap] at h
    obtain ⟨n, _, h⟩ := h
    have := picks_ge q s _ _ h
    omega

theorem picks_eats (q : List Int) : ∀ (b : Sq), b.eats = true → ∀ i e, e ∈ b.picks q i → i < e
  | .nil _, h, _, _, _ => by simp [Sq.eats] at h
  | .cons a k s, h, i, e, he => by
    simp only [Sq.picks, List.mem_flatMap] at he
    obtain ⟨n, hn, he⟩ := he
    have h1 := (counts_sub k _ n hn).1.1
    simp only [Sq.eats, Bool.or_eq_true, bne_iff_ne] at h
    rcases h with h | h
    · have := picks_ge q s _ _ he; omega
    · have := picks_eats q s h _ _ he; omega

theorem alts_eats (q : List Int) : ∀ (as : Alts), (∀ b ∈ as.list, b.eats = true) → ∀ i e, e ∈ as.picks q i → i < e
  | .last hat s, h, i, e, he => by
    simp only [Alts.picks, hatPicks] at he
    split at he
    · simp at he
    · exact picks_eats q s (h s (by simp [Alts.list])) i e he
  | .more hat s as, h, i, e, he => by
    simp only [Alts.picks, hatPicks, List.mem_append] at he
    rcases he with he | he
    · split at he
      · simp at he
      · exact picks_eats q s (h s (by simp [Alts.list])) i e he
    · exact alts_eats q as (fun b hb => h b (by simp [Alts.list, hb])) i e he

/-- The body of a quantified group, with or without a capture. -/
def bodyWays (picks : Nat → List Nat) (capture : Bool) (n : Nat) (i : Nat) (c : Caps) : List Way :=
  (picks i).map (fun e => (e, if capture then c.with n i e else c))

/-- The capture of the last repetition. -/
def keep (capture : Bool) (n : Nat) (c : Caps) (p : Nat × Nat) : Caps := if capture then c.with n p.1 p.2 else c

theorem with_same (c : Caps) (n a b a' b' : Nat) : (c.with n a b).with n a' b' = c.with n a' b' := by
  funext k; simp only [Caps.with]; split <;> rfl

theorem keep_keep (capture : Bool) (n : Nat) (c : Caps) (p r : Nat × Nat) : keep capture n (keep capture n c p) r = keep capture n c r := by
  cases capture with
  | true => exact with_same ..
  | false => rfl

theorem many_span {picks : Nat → List Nat} (hp : ∀ i e, e ∈ picks i → i < e) (capture : Bool) (n : Nat) : ∀ (f : Nat) (p : Nat × Nat) (c : Caps),
    manyMost (bodyWays picks capture n) f (p.2, keep capture n c p) = (manyS picks f p).map (fun r => (r.2, keep capture n c r))
  | 0, p, c => by simp [manyMost, manyS]
  | f + 1, p, c => by
    simp only [manyMost, manyS, bodyWays, List.filter_map, List.map_append, List.map_flatMap, List.map_cons, List.map_nil, List.flatMap_map]
    congr 1
    have hfil : (picks p.2).filter ((fun v : Way => decide (p.2 < v.1)) ∘ fun e => (e, if capture = true then (keep capture n c p).with n p.2 e else keep capture n c p)) = picks p.2 := by
      rw [List.filter_eq_self]
      intro e he
      simpa using hp _ _ he
    rw [hfil]
    have e1 : ∀ e, (if capture = true then (keep capture n c p).with n p.2 e else keep capture n c p) = keep capture n c (if capture = true then (p.2, e) else p) := by
      intro e
      cases capture with
      | true => exact with_same ..
      | false => rfl
    congr 1
    funext e
    have := many_span hp capture n f (p.2, e) c
    rw [← this]
    congr 2
    cases capture with
    | true => exact with_same ..
    | false => rfl

theorem must_span {picks : Nat → List Nat} (capture : Bool) (n : Nat) : ∀ (m : Nat) (p : Nat × Nat) (c : Caps),
    must (bodyWays picks capture n) m (p.2, keep capture n c p) = (mustS picks m p).map (fun r => (r.2, keep capture n c r))
  | 0, p, c => by simp [must, mustS]
  | m + 1, p, c => by
    simp only [must, mustS, bodyWays, List.map_flatMap, List.flatMap_map]
    congr 1
    funext e
    have := must_span (picks := picks) capture n m (p.2, e) c
    rw [← this]
    congr 2
    cases capture with
    | true => exact with_same ..
    | false => rfl

theorem must_start {picks : Nat → List Nat} (capture : Bool) (n m i : Nat) (c : Caps) (h : capture = true → m ≠ 0) :
    must (bodyWays picks capture n) m (i, c) = (mustS picks m (i, i)).map (fun r => (r.2, keep capture n c r)) := by
  cases capture with
  | false => exact must_span (picks := picks) false n m (i, i) c
  | true =>
    cases m with
    | zero => exact absurd rfl (h rfl)
    | succ m =>
      simp only [must, mustS, bodyWays, List.map_flatMap, List.flatMap_map]
      congr 1
      funext e
      exact must_span (picks := picks) true n m (i, e) c

/-- The ways of a quantified group. -/
theorem quant_span {picks : Nat → List Nat} (hp : ∀ i e, e ∈ picks i → i < e) (capture : Bool) (n len : Nat) (k : Quant) (hl : k.mode = .lazy → k.fixed = true)
    (hc : capture = true → k.lo ≠ 0) (i : Nat) (c : Caps) :
    k.ways len (bodyWays picks capture n) (i, c) = (spans len k picks i).map (fun r => (r.2, keep capture n c r)) := by
  have most : (must (bodyWays picks capture n) k.lo (i, c)).flatMap (manyMost (bodyWays picks capture n) (k.extra len)) =
      ((mustS picks k.lo (i, i)).flatMap (manyS picks (k.extra len))).map (fun r => (r.2, keep capture n c r)) := by
    rw [must_start capture n _ i c hc, List.flatMap_map, List.map_flatMap]
    congr 1
    funext r
    exact many_span hp capture n _ r c
  unfold Quant.ways spans
  cases hm : k.mode with
  | greedy => exact most
  | possessive => simp only; rw [most, List.map_take]
  | lazy =>
    simp only
    rw [← most]
    congr 1
    have : k.extra len = 0 := by
      have hf := hl hm
      cases k <;> simp [Quant.fixed, Quant.extra, Quant.hi, Quant.lo] at hf ⊢
    rw [this]; rfl

theorem ways_caps : ∀ (s : Sq), shallow s = true → ∀ (q : List Int) (n i : Nat) (c : Caps),
    s.ways q n i c = (caps q s i).map (fun r => (r.1, fill c n r.2))
  | .nil d, _, q, n, i, c => by simp [Sq.ways, caps, fill, Function.comp_def]
  | .cons (.group capture as) k s, h, q, n, i, c => by
    obtain ⟨h1, h2, h3⟩ := shallow_group h
    have hb : (Atom.group capture as).ways q n = bodyWays (as.picks q) capture n := by
      funext i c
      simp only [Atom.ways, bodyWays]
      cases capture with
      | true => simp only [if_true, (alts_ways as h1 q (n + 1) i c).1, List.map_map, Function.comp_def]
      | false => simp only [Bool.false_eq_true, if_false, (alts_ways as h1 q n i c).1]
    have hcount : as.count = 0 := (alts_ways as h1 q 0 0 c).2
    have hq : k.ways q.length (bodyWays (as.picks q) capture n) (i, c) = (spans q.length k (as.picks q) i).map (fun r => (r.2, keep capture n c r)) := by
      rcases h3 with rfl | h3
      · rw [quant_once, spans_once]
        simp only [bodyWays, List.map_map, Function.comp_def]
        rfl
      · simp only [repShallow, Bool.and_eq_true, List.all_eq_true, Bool.or_eq_true, Bool.not_eq_true', bne_iff_ne] at h3
        refine quant_span (alts_eats q as h3.1.1.2) capture n q.length k (fun hm => ?_) (fun hc => ?_) i c
        · have := h3.2; rw [hm] at this; exact this
        · rcases h3.1.2 with h | h
          · rw [hc] at h; cases h
          · exact h
    simp only [Sq.ways, hb, hq, caps, List.flatMap_map, List.map_flatMap, Atom.count, hcount, Nat.add_zero, List.map_map]
    congr 1
    funext p
    rw [ways_caps s h2]
    congr 1
    funext r
    cases capture <;> rfl
  | .cons (.chr _) k s, h, q, n, i, c | .cons (.esc _) k s, h, q, n, i, c | .cons .dot k s, h, q, n, i, c | .cons (.hex ..) k s, h, q, n, i, c
  | .cons (.oct ..) k s, h, q, n, i, c | .cons (.cls ..) k s, h, q, n, i, c => by
    simp only [shallow, Bool.and_eq_true] at h
    obtain ⟨h1, h2⟩ := atom_ways h.1.1 q n
    rw [Sq.ways, h1, h2, quant_one q _ k h.1.2, List.flatMap_map, caps, List.map_flatMap]
    · simp only [ways_caps s h.2 q, Nat.add_zero]
    · simp

end ERegex

import Verif.Spec.Address
import Verif.Proofs.Leftmost
import Verif.Proofs.Texts
/-!
# The attempts of the IPv4 pattern of the benchmark
-/
set_option autoImplicit false
namespace ERegex
open Spec

/-- The character at `p`, if there is one, meets the test. -/
def ck (q : List Int) (p : Nat) (f : Int → Bool) : Bool := (q[p]?).any f

theorem ck_iff {q : List Int} {p : Nat} {f : Int → Bool} : ck q p f = true ↔ ∃ c, q[p]? = some c ∧ f c = true := by
  simp [ck, Option.any_eq_true]

theorem ck_lt {q : List Int} {p : Nat} {f : Int → Bool} (h : ck q p f = true) : p < q.length := by
  obtain ⟨c, hc, _⟩ := ck_iff.1 h
  rcases Nat.lt_or_ge p q.length with h | h
  · exact h
  · rw [List.getElem?_eq_none h] at hc; cases hc

theorem step_ck {cx : Ctx} {f : Int → Bool} {st : St} {p : Nat} (hp : st.pos = p) (hl : p ≤ cx.query.length) :
    charStep cx f st = some (if ck cx.query p f then { st with accepted := true, pos := ((p + 1 : Nat) : Int) } else { st with accepted := false }) := by
  by_cases h : p < cx.query.length
  · have hr : cx.read st.pos = some cx.query[p] := by
      rw [hp, read_query cx p (by omega) (by simp only [Ctx.qend]; omega)]; simpa using List.getElem?_eq_getElem h
    rw [charStep_read (by rw [hp]; simp only [Ctx.qend]; omega) hr, hp]
    simp [ck, List.getElem?_eq_getElem h]
  · rw [charStep_end (by rw [hp]; simp only [Ctx.qend]; omega)]
    simp [ck, List.getElem?_eq_none (Nat.le_of_not_lt h)]

section
variable {cx : Ctx}

theorem two_run {x y : Node} (hx : single x = true) (hy : single y = true) (inj : List K) {st : St} {p : Nat} (hp : st.pos = p) (hl : p ≤ cx.query.length) :
    run cx (.simple x [y]) inj st = some (if ck cx.query p (testOf x) && ck cx.query (p + 1) (testOf y)
      then { st with accepted := true, pos := ((p + 2 : Nat) : Int) } else { st with accepted := false }) := by
  simp only [run, runs, simpleMatch, dfs]
  rw [charStep_of hx, charStep_of hy, step_ck hp hl]
  cases h1 : ck cx.query p (testOf x) with
  | false => simp
  | true =>
    simp only [if_true]
    rw [step_ck (p := p + 1) rfl (ck_lt h1)]
    cases h2 : ck cx.query (p + 1) (testOf y)
    · simp [hp]
    · simp; omega

theorem three_run {x y z : Node} (hx : single x = true) (hy : single y = true) (hz : single z = true) (inj : List K) {st : St} {p : Nat} (hp : st.pos = p)
    (hl : p ≤ cx.query.length) :
    run cx (.simple x [.simple y [z]]) inj st = some (if ck cx.query p (testOf x) && (ck cx.query (p + 1) (testOf y) && ck cx.query (p + 2) (testOf z))
      then { st with accepted := true, pos := ((p + 3 : Nat) : Int) } else { st with accepted := false }) := by
  simp only [run.eq_def (cx := cx) (.simple x [.simple y [z]]), runs, simpleMatch, dfs]
  rw [charStep_of hx, step_ck hp hl]
  cases h1 : ck cx.query p (testOf x) with
  | false => simp
  | true =>
    simp only [if_true]
    rw [two_run hy hz inj (p := p + 1) rfl (ck_lt h1)]
    cases h2 : (ck cx.query (p + 1) (testOf y) && ck cx.query (p + 1 + 1) (testOf z))
    · have h2' : (ck cx.query (p + 1) (testOf y) && ck cx.query (p + 2) (testOf z)) = false := h2
      simp [h2', hp]
    · have h2' : (ck cx.query (p + 1) (testOf y) && ck cx.query (p + 2) (testOf z)) = true := h2
      simp [h2']; omega

/-- `[0-9]` -/
def digitN : Node := .range 48 57 [91, 48, 45, 57, 93]
/-- `(?:25[0-5]|2[0-4][0-9]|[01]?[0-9][0-9])`, compiled -/
def octetN : Node :=
  .alt [.simple (.exact [50] [50]) [.simple (.exact [53] [53]) [.range 48 53 [91, 48, 45, 53, 93]]],
    .simple (.exact [50] [50]) [.simple (.range 48 52 [91, 48, 45, 52, 93]) [digitN]],
    .greedy (.alt [.exact [48] [48], .exact [49] [49]]) 0 1 [.simple digitN [digitN]]]
/-- An octet and a dot. -/
def octetDotN : Node := .simple octetN [.exact [46] [46]]
/-- The whole pattern, compiled. -/
def addressN : Node := .repeated octetDotN 3 [octetN]

def isDigit (c : Int) : Bool := decide (48 ≤ c) && decide (c ≤ 57)

/-- How long the octet at `p` is. -/
def octLen (q : List Int) (p : Nat) : Option Nat :=
  if ck q p (· == 50) && (ck q (p + 1) (· == 53) && ck q (p + 2) (fun c => decide (48 ≤ c) && decide (c ≤ 53))) then some 3
  else if ck q p (· == 50) && (ck q (p + 1) (fun c => decide (48 ≤ c) && decide (c ≤ 52)) && ck q (p + 2) isDigit) then some 3
  else if ck q p (fun c => c == 48 || c == 49) && (ck q (p + 1) isDigit && ck q (p + 2) isDigit) then some 3
  else if ck q p isDigit && ck q (p + 1) isDigit then some 2 else none

theorem ck_congr {q : List Int} {p : Nat} {f g : Int → Bool} (h : ∀ c, f c = g c) : ck q p f = ck q p g := by
  have : f = g := funext h
  rw [this]

theorem test_exact (x : Int) (d : List Int) (c : Int) : testOf (.exact [x] d) c = (c == x) := by
  show ([x] == [c]) = (c == x)
  rw [Bool.eq_iff_iff]
  simp only [beq_iff_eq, List.cons.injEq, and_true]
  exact eq_comm

theorem test_range (a b : Int) (d : List Int) (c : Int) : testOf (.range a b d) c = (decide (a ≤ c) && decide (c ≤ b)) := by
  simp [testOf, rangeTest]

/-- `[01]` -/
def bitN : Node := .alt [.exact [48] [48], .exact [49] [49]]

theorem test_bit (c : Int) : testOf bitN c = (c == 48 || c == 49) := by
  have h : testOf bitN c = (testOf (.exact [48] [48]) c || (testOf (.exact [49] [49]) c || false)) := rfl
  rw [h, test_exact, test_exact, Bool.or_false]

theorem test_digit (c : Int) : testOf digitN c = isDigit c := test_range 48 57 _ c

theorem pair_run (inj : List K) {st : St} {p : Nat} (hp : st.pos = p) (hl : p ≤ cx.query.length) :
    run cx (.simple digitN [digitN]) inj st = some (if ck cx.query p isDigit && ck cx.query (p + 1) isDigit
      then { st with accepted := true, pos := ((p + 2 : Nat) : Int) } else { st with accepted := false }) := by
  rw [two_run rfl rfl inj hp hl, ck_congr test_digit, ck_congr test_digit]

theorem run_greedy_if (cx : Ctx) (m : Node) (lo hi : Nat) (cs : List Node) : run cx (.greedy m lo hi cs) =
    if lo = 0 ∧ hi = 1 ∧ minSize m = maxSize m then optionalMatch (run cx m []) (minSize m) (runs cx cs)
    else greedyMatch (run cx m []) lo hi (runs cx cs) := by rw [run]

theorem runs_one (cx : Ctx) (c : Node) : runs cx [c] = [run cx c] := by rw [runs, runs]

/-- `[01]?[0-9][0-9]` -/
theorem maybe_run {st : St} {p : Nat} (hp : st.pos = p) (hl : p ≤ cx.query.length) (hs : st.start ≤ p)
    (hb : st.start = p ∨ (0 < p ∧ ck cx.query (p - 1) isDigit = false)) :
    ∃ st', run cx (.greedy bitN 0 1 [.simple digitN [digitN]]) [] st = some st' ∧
      (if ck cx.query p (fun c => c == 48 || c == 49) && (ck cx.query (p + 1) isDigit && ck cx.query (p + 2) isDigit)
        then st' = { st with accepted := true, pos := ((p + 3 : Nat) : Int) }
        else if ck cx.query p isDigit && ck cx.query (p + 1) isDigit then st' = { st with accepted := true, pos := ((p + 2 : Nat) : Int) }
        else ∃ z : Nat, st' = { st with accepted := false, pos := (z : Int) } ∧ st.start ≤ z ∧ z ≤ p) := by
  have hrun : run cx (.greedy bitN 0 1 [.simple digitN [digitN]]) = optionalMatch (run cx bitN []) 1 [run cx (.simple digitN [digitN])] := by
    have : minSize bitN = 1 ∧ maxSize bitN = 1 := by decide
    have h := run_greedy_if cx bitN 0 1 [.simple digitN [digitN]]
    rw [h, if_pos ⟨rfl, rfl, by rw [this.1, this.2]⟩, this.1, runs_one]
  have hbt : ∀ x : St, greedyBacktrack [run cx (.simple digitN [digitN])] [] x = run cx (.simple digitN [digitN]) [] x := fun x => rfl
  rw [hrun]
  simp only [optionalMatch, hbt]
  rw [charStep_of (m := bitN) rfl, step_ck hp hl, ck_congr test_bit]
  cases hA : ck cx.query p (fun c => c == 48 || c == 49) with
  | true =>
    have hlt := ck_lt hA
    simp only [if_true]
    rw [pair_run [] (p := p + 1) rfl hlt]
    cases h12 : (ck cx.query (p + 1) isDigit && ck cx.query (p + 1 + 1) isDigit) with
    | true =>
      have h12' : (ck cx.query (p + 1) isDigit && ck cx.query (p + 2) isDigit) = true := h12
      refine ⟨_, rfl, ?_⟩
      simp [h12']; omega
    | false =>
      have h12' : (ck cx.query (p + 1) isDigit && ck cx.query (p + 2) isDigit) = false := h12
      simp only [h12', Bool.and_false, Bool.false_eq_true, if_false, Bool.not_false, Bool.true_and]
      rw [if_pos (by simp only [decide_eq_true_eq]; omega)]
      rw [pair_run [] (p := p) (by simp) hl]
      cases h01 : (ck cx.query p isDigit && ck cx.query (p + 1) isDigit) with
      | true => exact ⟨_, rfl, by simp⟩
      | false => exact ⟨_, rfl, by simp only [Bool.false_eq_true, if_false]; exact ⟨p, by simp, hs, Nat.le_refl _⟩⟩
  | false =>
    simp only [Bool.false_eq_true, if_false, Bool.false_and]
    rw [pair_run [] (st := { st with accepted := false }) (p := p) hp hl]
    cases h01 : (ck cx.query p isDigit && ck cx.query (p + 1) isDigit) with
    | true => exact ⟨_, rfl, by simp⟩
    | false =>
      simp only [Bool.false_eq_true, if_false, Bool.not_false, Bool.true_and]
      by_cases hgt : st.pos > st.start
      · rw [if_pos (by simpa using hgt)]
        rcases hb with hb | ⟨h0, hb⟩
        · omega
        · rw [pair_run [] (p := p - 1) (by simp; omega) (by omega), hb]
          exact ⟨_, rfl, p - 1, by simp; omega, by omega, by omega⟩
      · rw [if_neg (by simpa using hgt)]
        exact ⟨_, rfl, p, by simp [hp], hs, Nat.le_refl _⟩

theorem octet_run {st : St} {p : Nat} (hp : st.pos = p) (hl : p ≤ cx.query.length) (hs : st.start ≤ p)
    (hb : st.start = p ∨ (0 < p ∧ ck cx.query (p - 1) isDigit = false)) :
    ∃ st', run cx octetN [] st = some st' ∧
      (∀ n, octLen cx.query p = some n → st' = { st with accepted := true, pos := ((p + n : Nat) : Int) }) ∧
      (octLen cx.query p = none → ∃ z : Nat, st' = { st with accepted := false, pos := (z : Int) } ∧ st.start ≤ z ∧ z ≤ p) := by
  have e1 : ∀ st : St, st.pos = p → run cx (.simple (.exact [50] [50]) [.simple (.exact [53] [53]) [.range 48 53 [91, 48, 45, 53, 93]]]) [] st = _ :=
    fun st h => three_run (cx := cx) rfl rfl rfl [] h hl
  have e2 : ∀ st : St, st.pos = p → run cx (.simple (.exact [50] [50]) [.simple (.range 48 52 [91, 48, 45, 52, 93]) [digitN]]) [] st = _ :=
    fun st h => three_run (cx := cx) rfl rfl rfl [] h hl
  rw [octetN, run, runs, runs, runs, runs]
  simp only [dfs]
  rw [e1 st hp, ck_congr (test_exact 50 _), ck_congr (test_exact 53 _), ck_congr (test_range 48 53 _)]
  simp only [octLen]
  cases h1 : (ck cx.query p (· == 50) && (ck cx.query (p + 1) (· == 53) && ck cx.query (p + 2) (fun c => decide (48 ≤ c) && decide (c ≤ 53)))) with
  | true => exact ⟨_, rfl, by simp⟩
  | false =>
    simp only [Bool.false_eq_true, if_false]
    rw [e2 { st with accepted := true } hp, ck_congr (test_exact 50 _), ck_congr (test_range 48 52 _), ck_congr test_digit]
    cases h2 : (ck cx.query p (· == 50) && (ck cx.query (p + 1) (fun c => decide (48 ≤ c) && decide (c ≤ 52)) && ck cx.query (p + 2) isDigit)) with
    | true => exact ⟨_, rfl, by simp⟩
    | false =>
      simp only [Bool.false_eq_true, if_false]
      obtain ⟨st', r1, r2⟩ := maybe_run (cx := cx) (st := { st with accepted := true }) hp hl hs hb
      refine ⟨st', r1, ?_⟩
      split at r2
      · rename_i h3
        rw [if_pos h3]
        subst r2
        simp
      · rename_i h3
        rw [if_neg h3]
        split at r2
        · rename_i h4
          rw [if_pos h4]; subst r2; simp
        · rename_i h4
          rw [if_neg h4]
          obtain ⟨z, rfl, r3⟩ := r2
          exact ⟨by simp, fun _ => ⟨z, rfl, r3⟩⟩

theorem ck_mono {q : List Int} {p : Nat} {f g : Int → Bool} (h : ck q p f = true) (hfg : ∀ c, f c = true → g c = true) : ck q p g = true := by
  obtain ⟨c, h1, h2⟩ := ck_iff.1 h
  exact ck_iff.2 ⟨c, h1, hfg c h2⟩

theorem octLen_digits {q : List Int} {p n : Nat} (h : octLen q p = some n) : (n = 2 ∨ n = 3) ∧ ∀ i, i < n → ck q (p + i) isDigit = true := by
  have d50 : ∀ c : Int, (c == 50) = true → isDigit c = true := by intro c hc; simp only [beq_iff_eq] at hc; subst hc; rfl
  have d53 : ∀ c : Int, (c == 53) = true → isDigit c = true := by intro c hc; simp only [beq_iff_eq] at hc; subst hc; rfl
  have dbit : ∀ c : Int, (c == 48 || c == 49) = true → isDigit c = true := by
    intro c hc; simp only [Bool.or_eq_true, beq_iff_eq] at hc
    rcases hc with rfl | rfl <;> rfl
  have d5 : ∀ c : Int, (decide (48 ≤ c) && decide (c ≤ 53)) = true → isDigit c = true := by
    intro c hc; simp only [Bool.and_eq_true, decide_eq_true_eq, isDigit] at hc ⊢; omega
  have d4 : ∀ c : Int, (decide (48 ≤ c) && decide (c ≤ 52)) = true → isDigit c = true := by
    intro c hc; simp only [Bool.and_eq_true, decide_eq_true_eq, isDigit] at hc ⊢; omega
  have three : ∀ {f g k : Int → Bool}, (ck q p f && (ck q (p + 1) g && ck q (p + 2) k)) = true → (∀ c, f c = true → isDigit c = true) →
      (∀ c, g c = true → isDigit c = true) → (∀ c, k c = true → isDigit c = true) → ∀ i, i < 3 → ck q (p + i) isDigit = true := by
    intro f g k hc hf hg hk i hi
    simp only [Bool.and_eq_true] at hc
    match i, hi with
    | 0, _ => exact ck_mono hc.1 hf
    | 1, _ => exact ck_mono hc.2.1 hg
    | 2, _ => exact ck_mono hc.2.2 hk
  simp only [octLen] at h
  split at h
  · rename_i hc; cases h; exact ⟨.inr rfl, three hc d50 d53 d5⟩
  · split at h
    · rename_i hc; cases h; exact ⟨.inr rfl, three hc d50 d4 (fun _ h => h)⟩
    · split at h
      · rename_i hc; cases h; exact ⟨.inr rfl, three hc dbit (fun _ h => h) (fun _ h => h)⟩
      · split at h
        · rename_i hc
          cases h
          simp only [Bool.and_eq_true] at hc
          refine ⟨.inl rfl, fun i hi => ?_⟩
          match i, hi with
          | 0, _ => exact hc.1
          | 1, _ => exact hc.2
        · cases h

/-- `k` octets with a dot and one without: where they end. -/
def octets (q : List Int) : Nat → Nat → Option Nat
  | 0, p => (octLen q p).map (p + ·)
  | k + 1, p =>
    match octLen q p with
    | some n => if ck q (p + n) (· == 46) then octets q k (p + n + 1) else none
    | none => none

theorem dot_digit {q : List Int} {p : Nat} (h : ck q p (· == 46) = true) : ck q p isDigit = false := by
  obtain ⟨c, h1, h2⟩ := ck_iff.1 h
  simp only [beq_iff_eq] at h2; subst h2
  simp [ck, h1, isDigit]

/-- Nothing begins inside an octet either. -/
theorem octets_inner {q : List Int} {p n x k : Nat} (ho : octLen q p = some n) (hd : ck q (p + n) (· == 46) = true) (h1 : p < x) (h2 : x ≤ p + n)
    (hk : ∀ k', k ≤ k' → octets q k' (p + n + 1) = none) : ∀ k', k + 1 ≤ k' → octets q k' x = none := by
  intro k' hk'
  obtain ⟨k'', rfl⟩ : ∃ j, k' = j + 1 := ⟨k' - 1, by omega⟩
  simp only [octets]
  obtain ⟨hn, hdig⟩ := octLen_digits ho
  cases e : octLen q x with
  | none => rfl
  | some m =>
    obtain ⟨hm, hdx⟩ := octLen_digits e
    have hle : x + m ≤ p + n := by
      rcases Nat.lt_or_ge (p + n) (x + m) with hlt | hge
      · have := hdx (p + n - x) (by omega)
        rw [show x + (p + n - x) = p + n by omega, dot_digit hd] at this
        cases this
      · exact hge
    have : x + m = p + n := by omega
    simp only [this, hd, if_true]
    exact hk k'' (by omega)

theorem octetDot_run {st : St} {p : Nat} (hp : st.pos = p) (hl : p ≤ cx.query.length) (hs : st.start ≤ p)
    (hb : st.start = p ∨ (0 < p ∧ ck cx.query (p - 1) isDigit = false)) :
    ∃ st', run cx octetDotN [] st = some st' ∧
      ((∃ n, octLen cx.query p = some n ∧ ck cx.query (p + n) (· == 46) = true ∧ st' = { st with accepted := true, pos := ((p + n + 1 : Nat) : Int) }) ∨
       ((∀ n, octLen cx.query p = some n → ck cx.query (p + n) (· == 46) = false) ∧
        ∃ z : Nat, st' = { st with accepted := false, pos := (z : Int) } ∧ st.start ≤ z ∧ z ≤ p)) := by
  obtain ⟨s1, r1, r2, r3⟩ := octet_run (cx := cx) hp hl hs hb
  rw [octetDotN, run, runs_one]
  simp only [simpleMatch, r1, dfs]
  cases ho : octLen cx.query p with
  | none =>
    obtain ⟨z, rfl, hz⟩ := r3 ho
    exact ⟨_, rfl, .inr ⟨by simp, z, rfl, hz⟩⟩
  | some n =>
    have hle : p + n ≤ cx.query.length := by
      obtain ⟨hn, hd⟩ := octLen_digits ho
      have := ck_lt (hd (n - 1) (by omega))
      omega
    rw [r2 n ho]
    simp only [if_true]
    rw [charStep_of (m := .exact [46] [46]) rfl, step_ck (p := p + n) rfl hle, ck_congr (test_exact 46 _)]
    cases hd : ck cx.query (p + n) (· == 46) with
    | true => exact ⟨_, rfl, .inl ⟨n, rfl, hd, by simp⟩⟩
    | false => exact ⟨_, rfl, .inr ⟨fun m hm => by cases hm; exact hd, p, by simp [hp], hs, Nat.le_refl _⟩⟩

theorem tail_run : ∀ (k : Nat) {st : St} {p : Nat}, st.pos = p → p ≤ cx.query.length → st.start ≤ p →
    (st.start = p ∨ (0 < p ∧ ck cx.query (p - 1) isDigit = false)) →
    ∃ st', (match repLoop (run cx octetDotN []) k st with
        | none => none
        | some (false, s) => some s
        | some (true, s) => dfs [run cx octetN] [] s) = some st' ∧
      (∀ e, octets cx.query k p = some e → st' = { st with accepted := true, pos := (e : Int) }) ∧
      (octets cx.query k p = none → ∃ z : Nat, st' = { st with accepted := false, pos := (z : Int) } ∧ st.start ≤ z ∧
        ∀ x, p ≤ x → (x = p ∨ x ≤ z) → ∀ k', k ≤ k' → octets cx.query k' x = none)
  | 0, st, p, hp, hl, hs, hb => by
    obtain ⟨s1, r1, r2, r3⟩ := octet_run (cx := cx) hp hl hs hb
    refine ⟨s1, by simp only [repLoop, dfs, r1], fun e he => ?_, fun hn => ?_⟩
    · simp only [octets, Option.map_eq_some_iff] at he
      obtain ⟨n, h1, rfl⟩ := he
      exact r2 n h1
    · simp only [octets, Option.map_eq_none_iff] at hn
      obtain ⟨z, e, h1, h2⟩ := r3 hn
      refine ⟨z, e, h1, fun x hx1 hx2 k' _ => ?_⟩
      have : x = p := by omega
      subst this
      cases k' <;> simp [octets, hn]
  | k + 1, st, p, hp, hl, hs, hb => by
    obtain ⟨s1, r1, r2⟩ := octetDot_run (cx := cx) hp hl hs hb
    rcases r2 with ⟨n, ho, hd, rfl⟩ | ⟨hno, z, rfl, h1, h2⟩
    · have hlt := ck_lt hd
      obtain ⟨s2, i1, i2, i3⟩ := tail_run k (st := { st with accepted := true, pos := ((p + n + 1 : Nat) : Int) }) (p := p + n + 1) rfl hlt
        (by simp only; omega) (.inr ⟨by omega, by rw [Nat.add_sub_cancel]; exact dot_digit hd⟩)
      have hc : octets cx.query (k + 1) p = octets cx.query k (p + n + 1) := by simp only [octets, ho, hd, if_true]
      refine ⟨s2, ?_, fun e he => ?_, fun hn => ?_⟩
      · simp only [repLoop, r1, if_true]; exact i1
      · rw [i2 e (hc ▸ he)]
      · obtain ⟨z, e, j1, j2⟩ := i3 (hc ▸ hn)
        refine ⟨z, by rw [e], j1, fun x hx1 hx2 k' hk' => ?_⟩
        have h0 : ∀ k', k ≤ k' → octets cx.query k' (p + n + 1) = none := j2 _ (Nat.le_refl _) (.inl rfl)
        by_cases hx : x = p
        · subst hx
          obtain ⟨k'', rfl⟩ : ∃ j, k' = j + 1 := ⟨k' - 1, by omega⟩
          simp only [octets, ho, hd, if_true]
          exact h0 k'' (by omega)
        · by_cases hx' : x ≤ p + n
          · exact octets_inner ho hd (by omega) hx' h0 k' hk'
          · exact j2 x (by omega) (by omega) k' (by omega)
    · have hnone : ∀ k', k + 1 ≤ k' → octets cx.query k' p = none := by
        intro k' hk'
        obtain ⟨k'', rfl⟩ : ∃ j, k' = j + 1 := ⟨k' - 1, by omega⟩
        simp only [octets]
        cases ho : octLen cx.query p with
        | none => rfl
        | some n => simp only [hno n ho, Bool.false_eq_true, if_false]
      refine ⟨_, by simp only [repLoop, r1, Bool.false_eq_true, if_false], fun e he => ?_, fun _ => ⟨z, rfl, h1, fun x hx1 hx2 k' hk' => ?_⟩⟩
      · rw [hnone _ (Nat.le_refl _)] at he; cases he
      · have : x = p := by omega
        subst this; exact hnone k' hk'

/-- What the attempt at `p` does. -/
theorem address_run {st : St} {p : Nat} (hp : st.pos = p) (hl : p ≤ cx.query.length) (hs : st.start = p) :
    ∃ st', run cx addressN [] st = some st' ∧ (∀ e, octets cx.query 3 p = some e → st' = { st with accepted := true, pos := (e : Int) }) ∧
      (octets cx.query 3 p = none → ∃ z : Nat, st' = { st with accepted := false, pos := (z : Int) } ∧ ∀ x, p ≤ x → x ≤ z → octets cx.query 3 x = none) := by
  obtain ⟨st', r1, r2, r3⟩ := tail_run (cx := cx) 3 hp hl (by omega) (.inl hs)
  refine ⟨st', ?_, r2, fun hn => ?_⟩
  · rw [addressN, run, runs_one]
    simp only [repeatedMatch]
    exact r1
  · obtain ⟨z, e, _, h⟩ := r3 hn
    exact ⟨z, e, fun x h1 h2 => h x h1 (.inr h2) 3 (Nat.le_refl _)⟩

end
end ERegex

namespace ERegex
open Spec

theorem drop_at {q : List Int} {p : Nat} {c : Int} (h : q[p]? = some c) : q.drop p = c :: q.drop (p + 1) := by
  have hlt : p < q.length := by
    rcases Nat.lt_or_ge p q.length with h' | h'
    · exact h'
    · rw [List.getElem?_eq_none h'] at h; cases h
  rw [List.drop_eq_getElem_cons hlt]
  rw [List.getElem?_eq_getElem hlt] at h
  cases h; rfl

theorem at_drop {q : List Int} {p i : Nat} {l : List Int} (h : q.drop p = l) : q[p + i]? = l[i]? := by
  rw [← h, List.getElem?_drop]

theorem oct_sound {q : List Int} {p n : Nat} (h : octLen q p = some n) : ∃ w r, q.drop p = w ++ r ∧ w.length = n ∧ Octet w := by
  have three : ∀ {f g k : Int → Bool}, (ck q p f && (ck q (p + 1) g && ck q (p + 2) k)) = true →
      ∃ a b c, f a = true ∧ g b = true ∧ k c = true ∧ q.drop p = [a, b, c] ++ q.drop (p + 3) := by
    intro f g k hc
    simp only [Bool.and_eq_true] at hc
    obtain ⟨a, a1, a2⟩ := ck_iff.1 hc.1
    obtain ⟨b, b1, b2⟩ := ck_iff.1 hc.2.1
    obtain ⟨c, c1, c2⟩ := ck_iff.1 hc.2.2
    exact ⟨a, b, c, a2, b2, c2, by rw [drop_at a1, drop_at b1, drop_at c1]; rfl⟩
  have mk : ∀ {a b c : Int}, 48 ≤ a → a ≤ 57 → 48 ≤ b → b ≤ 57 → 48 ≤ c → c ≤ 57 → 100 * (a - 48) + 10 * (b - 48) + (c - 48) ≤ 255 → Octet [a, b, c] := by
    intro a b c a1 a2 b1 b2 c1 c2 hv
    refine ⟨.inr rfl, fun x hx => ?_, ?_⟩
    · simp only [List.mem_cons, List.not_mem_nil, or_false] at hx
      rcases hx with rfl | rfl | rfl <;> omega
    · simp only [numeral, List.foldl_cons, List.foldl_nil]; omega
  simp only [octLen] at h
  split at h
  · rename_i hc; cases h
    obtain ⟨a, b, c, h1, h2, h3, h4⟩ := three hc
    simp only [beq_iff_eq, Bool.and_eq_true, decide_eq_true_eq] at h1 h2 h3
    exact ⟨_, _, h4, rfl, mk (by omega) (by omega) (by omega) (by omega) (by omega) (by omega) (by omega)⟩
  · split at h
    · rename_i hc; cases h
      obtain ⟨a, b, c, h1, h2, h3, h4⟩ := three hc
      simp only [beq_iff_eq, Bool.and_eq_true, decide_eq_true_eq, isDigit] at h1 h2 h3
      exact ⟨_, _, h4, rfl, mk (by omega) (by omega) (by omega) (by omega) (by omega) (by omega) (by omega)⟩
    · split at h
      · rename_i hc; cases h
        obtain ⟨a, b, c, h1, h2, h3, h4⟩ := three hc
        simp only [beq_iff_eq, Bool.and_eq_true, Bool.or_eq_true, decide_eq_true_eq, isDigit] at h1 h2 h3
        exact ⟨_, _, h4, rfl, mk (by omega) (by omega) (by omega) (by omega) (by omega) (by omega) (by omega)⟩
      · split at h
        · rename_i hc; cases h
          simp only [Bool.and_eq_true] at hc
          obtain ⟨a, a1, a2⟩ := ck_iff.1 hc.1
          obtain ⟨b, b1, b2⟩ := ck_iff.1 hc.2
          simp only [Bool.and_eq_true, decide_eq_true_eq, isDigit] at a2 b2
          refine ⟨[a, b], q.drop (p + 2), by rw [drop_at a1, drop_at b1]; rfl, rfl, .inl rfl, fun x hx => ?_, ?_⟩
          · simp only [List.mem_cons, List.not_mem_nil, or_false] at hx
            rcases hx with rfl | rfl <;> omega
          · simp only [numeral, List.foldl_cons, List.foldl_nil]; omega
        · cases h

theorem oct_complete {q : List Int} {p : Nat} {w r : List Int} (h : q.drop p = w ++ r) (hw : Octet w) : ∃ n, octLen q p = some n ∧ w.length ≤ n := by
  obtain ⟨hlen, hd, hv⟩ := hw
  have ckAt : ∀ (i : Nat) (c : Int) (f : Int → Bool), w[i]? = some c → ck q (p + i) f = f c := by
    intro i c f hc
    have hi : i < w.length := by
      rcases Nat.lt_or_ge i w.length with h' | h'
      · exact h'
      · rw [List.getElem?_eq_none h'] at hc; cases hc
    have : q[p + i]? = some c := by rw [at_drop h, List.getElem?_append_left hi, hc]
    simp [ck, this]
  match w, hlen with
  | [a, b], _ =>
    have ha := hd a (by simp)
    have hb := hd b (by simp)
    have k0 : ck q p isDigit = true := by
      have := ckAt 0 a isDigit rfl
      rw [Nat.add_zero] at this
      rw [this]; simp [isDigit, ha]
    have k1 : ck q (p + 1) isDigit = true := by rw [ckAt 1 b isDigit rfl]; simp [isDigit, hb]
    simp only [octLen, k0, k1, Bool.and_true]
    split
    · exact ⟨3, rfl, by simp⟩
    · split
      · exact ⟨3, rfl, by simp⟩
      · split
        · exact ⟨3, rfl, by simp⟩
        · exact ⟨2, rfl, by simp⟩
  | [a, b, c], _ =>
    have ha := hd a (by simp)
    have hb := hd b (by simp)
    have hc := hd c (by simp)
    simp only [numeral, List.foldl_cons, List.foldl_nil] at hv
    have k0 : ∀ f, ck q p f = f a := fun f => by have := ckAt 0 a f rfl; rwa [Nat.add_zero] at this
    have k1 : ∀ f, ck q (p + 1) f = f b := fun f => ckAt 1 b f rfl
    have k2 : ∀ f, ck q (p + 2) f = f c := fun f => ckAt 2 c f rfl
    refine ⟨3, ?_, by simp⟩
    simp only [octLen, k0, k1, k2]
    by_cases c1 : a = 50 ∧ b = 53
    · rw [if_pos (by simp [c1.1, c1.2, hc]; omega)]
    · by_cases c2 : a = 50
      · rw [if_neg (by simp [c2]; omega), if_pos (by simp [c2, isDigit, hb, hc]; omega)]
      · rw [if_neg (by simp [c2]), if_neg (by simp [c2]), if_pos (by simp [isDigit, hb, hc]; omega)]

/-- `k` octets with a dot and one without. -/
def Chained : Nat → List Int → Prop
  | 0, w => Octet w
  | k + 1, w => ∃ a r, Octet a ∧ Chained k r ∧ w = a ++ 46 :: r

theorem octets_sound {q : List Int} : ∀ (k : Nat) {p e : Nat}, octets q k p = some e → ∃ w r, q.drop p = w ++ r ∧ Chained k w ∧ e = p + w.length
  | 0, p, e, h => by
    simp only [octets, Option.map_eq_some_iff] at h
    obtain ⟨n, h1, rfl⟩ := h
    obtain ⟨w, r, e1, rfl, e3⟩ := oct_sound h1
    exact ⟨w, r, e1, e3, rfl⟩
  | k + 1, p, e, h => by
    simp only [octets] at h
    cases ho : octLen q p with
    | none => rw [ho] at h; cases h
    | some n =>
      rw [ho] at h
      simp only at h
      split at h
      · rename_i hd
        obtain ⟨a, r, e1, rfl, e3⟩ := oct_sound ho
        obtain ⟨w, r', f1, f2, rfl⟩ := octets_sound k h
        obtain ⟨c, c1, c2⟩ := ck_iff.1 hd
        simp only [beq_iff_eq] at c2; subst c2
        refine ⟨a ++ 46 :: w, r', ?_, ⟨a, w, e3, f2, rfl⟩, by simp; omega⟩
        have hr : r = q.drop (p + a.length) := by
          have := congrArg (List.drop a.length) e1
          rw [List.drop_left, List.drop_drop] at this
          exact this.symm
        rw [e1, hr, drop_at c1, f1]
        simp
      · cases h

theorem octets_complete {q : List Int} : ∀ (k : Nat) {p : Nat} {w r : List Int}, q.drop p = w ++ r → Chained k w → ∃ e, octets q k p = some e ∧ p + w.length ≤ e
  | 0, p, w, r, h, hw => by
    obtain ⟨n, h1, h2⟩ := oct_complete h hw
    exact ⟨p + n, by simp [octets, h1], by omega⟩
  | k + 1, p, w, r, h, hw => by
    obtain ⟨a, w', ha, hw', rfl⟩ := hw
    have h' : q.drop p = a ++ (46 :: w' ++ r) := by rw [h]; simp
    obtain ⟨n, h1, h2⟩ := oct_complete h' ha
    have hdot : q[p + a.length]? = some 46 := by
      rw [at_drop h', List.getElem?_append_right (Nat.le_refl _)]; simp
    have hn : n = a.length := by
      rcases Nat.lt_or_ge a.length n with hlt | hge
      · have := (octLen_digits h1).2 a.length hlt
        simp [ck, hdot, isDigit] at this
      · omega
    subst hn
    have hd : ck q (p + a.length) (· == 46) = true := ck_iff.2 ⟨46, hdot, rfl⟩
    have h3 : q.drop (p + a.length + 1) = w' ++ r := by
      have : q.drop (p + a.length) = 46 :: (w' ++ r) := by
        rw [← List.drop_drop, h']; simp
      rw [← List.drop_drop, this]; rfl
    obtain ⟨e, e1, e2⟩ := octets_complete k h3 hw'
    exact ⟨e, by simp only [octets, h1, hd, if_true, e1], by simp; omega⟩

theorem address_chained (w : List Int) : Address w ↔ Chained 3 w := by
  constructor
  · rintro ⟨a, b, c, d, ha, hb, hc, hd, rfl⟩
    exact ⟨a, _, ha, ⟨b, _, hb, ⟨c, _, hc, hd, rfl⟩, rfl⟩, by simp⟩
  · rintro ⟨a, _, ha, ⟨b, _, hb, ⟨c, d, hc, hd, rfl⟩, rfl⟩, rfl⟩
    exact ⟨a, b, c, d, ha, hb, hc, hd, by simp⟩

theorem octets_longest (q : List Int) (x e : Nat) (hx : x ≤ q.length) : octets q 3 x = some e ↔ LongestAddress q x e := by
  have split : ∀ {w r : List Int}, q.drop x = w ++ r → q = q.take x ++ w ++ r := fun h => by
    rw [List.append_assoc, ← h, List.take_append_drop]
  constructor
  · intro h
    obtain ⟨w, r, h1, h2, h3⟩ := octets_sound 3 h
    refine ⟨q.take x, w, r, split h1, by simp [hx], h3.symm, (address_chained w).2 h2, fun w' r' e1 e2 => ?_⟩
    have : q.drop x = w' ++ r' := by
      rw [e1, List.append_assoc]
      have hl : (q.take x).length = x := by simp [hx]
      exact List.drop_left' hl
    obtain ⟨e', f1, f2⟩ := octets_complete 3 this ((address_chained w').1 e2)
    rw [h] at f1; cases f1
    omega
  · rintro ⟨u, w, r, e1, hu, he, ha, hmax⟩
    have hd : q.drop x = w ++ r := by rw [e1, List.append_assoc]; exact List.drop_left' hu
    obtain ⟨e', f1, f2⟩ := octets_complete 3 hd ((address_chained w).1 ha)
    obtain ⟨w', r', g1, g2, g3⟩ := octets_sound 3 f1
    have hu' : u = q.take x := by rw [e1, List.append_assoc, List.take_left' hu]
    have := hmax w' r' (by rw [hu']; exact split g1) ((address_chained w').2 g2)
    rw [f1]
    congr 1; omega

theorem octets_bounds {q : List Int} {x e : Nat} (h : octets q 3 x = some e) : x < e ∧ e ≤ q.length ∧ x < q.length := by
  obtain ⟨w, r, h1, h2, h3⟩ := octets_sound 3 h
  have hw : 0 < w.length := by
    obtain ⟨a, r, _, _, rfl⟩ := h2
    simp only [List.length_append, List.length_cons]; omega
  have := congrArg List.length h1
  simp only [List.length_drop, List.length_append] at this
  omega

end ERegex

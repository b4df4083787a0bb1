import Verif.Proofs.Address
import Verif.Proofs.Ways
/-!
# The attempts of `a?a`, `a??a`, `a?+a` and `\d*\w+abcd`

These patterns of the project's tests need backtracking into an optional part that can begin with the same character as what follows it.
-/
set_option autoImplicit false
namespace ERegex
open Spec

theorem ck_run (q : List Int) (S : Int → Bool) (i : Nat) : ck q i S = true ↔ 1 ≤ runLen S (q.drop i) := by
  rw [← inClass_runLen, ck_iff]
  constructor
  · rintro h k hk
    obtain rfl : k = 0 := by omega
    simpa using h
  · intro h
    simpa using h 0 (by omega)

theorem picks_once (q : List Int) (a : Atom) (s : Sq) (i : Nat) : (Sq.cons a .once s).picks q i = if ck q i a.set then s.picks q (i + 1) else [] := by
  rw [Sq.picks]
  by_cases h : 1 ≤ runLen a.set (q.drop i)
  · rw [if_pos ((ck_run _ _ _).2 h)]
    simp [Quant.counts, Quant.mode, Quant.lo, Quant.top, Quant.hi, Nat.min_eq_left h]
  · have h0 : runLen a.set (q.drop i) = 0 := by omega
    rw [if_neg (fun c => h ((ck_run _ _ _).1 c)), h0]
    simp [Quant.counts, Quant.mode, Quant.lo, Quant.top, Quant.hi]

theorem picks_opt_greedy (q : List Int) (a : Atom) (s : Sq) (i : Nat) :
    (Sq.cons a (.opt .greedy) s).picks q i = (if ck q i a.set then s.picks q (i + 1) else []) ++ s.picks q i := by
  rw [Sq.picks]
  by_cases h : 1 ≤ runLen a.set (q.drop i)
  · rw [if_pos ((ck_run _ _ _).2 h)]
    simp [Quant.counts, Quant.mode, Quant.lo, Quant.top, Quant.hi, Nat.min_eq_left h, List.range'_succ]
  · have h0 : runLen a.set (q.drop i) = 0 := by omega
    rw [if_neg (fun c => h ((ck_run _ _ _).1 c)), h0]
    simp [Quant.counts, Quant.mode, Quant.lo, Quant.top, Quant.hi]

theorem picks_opt_lazy (q : List Int) (a : Atom) (s : Sq) (i : Nat) :
    (Sq.cons a (.opt .lazy) s).picks q i = s.picks q i ++ (if ck q i a.set then s.picks q (i + 1) else []) := by
  rw [Sq.picks]
  by_cases h : 1 ≤ runLen a.set (q.drop i)
  · rw [if_pos ((ck_run _ _ _).2 h)]
    simp [Quant.counts, Quant.mode, Quant.lo, Quant.top, Quant.hi, Nat.min_eq_left h, List.range'_succ]
  · have h0 : runLen a.set (q.drop i) = 0 := by omega
    rw [if_neg (fun c => h ((ck_run _ _ _).1 c)), h0]
    simp [Quant.counts, Quant.mode, Quant.lo, Quant.top, Quant.hi]

theorem picks_opt_possessive (q : List Int) (a : Atom) (s : Sq) (i : Nat) :
    (Sq.cons a (.opt .possessive) s).picks q i = if ck q i a.set then s.picks q (i + 1) else s.picks q i := by
  rw [Sq.picks]
  by_cases h : 1 ≤ runLen a.set (q.drop i)
  · rw [if_pos ((ck_run _ _ _).2 h)]
    simp [Quant.counts, Quant.mode, Quant.lo, Quant.top, Quant.hi, Nat.min_eq_left h]
  · have h0 : runLen a.set (q.drop i) = 0 := by omega
    rw [if_neg (fun c => h ((ck_run _ _ _).1 c)), h0]
    simp [Quant.counts, Quant.mode, Quant.lo, Quant.top, Quant.hi]

/-- The attempt at `s`, in a form that is easy to use: it decides `picks`, and what it passes over has none. -/
theorem attempts_picks {cx : Ctx} {t : Node} {F : Nat → List Nat} (hsafe : SafeTree cx t)
    (h : ∀ (st : St) (p : Nat), st.pos = p → st.start = p → p ≤ cx.query.length → ∃ st', run cx t [] st = some st' ∧
      (st'.accepted = true → (F p).head? = some (off st')) ∧
      (st'.accepted = false → ∀ x, p ≤ x → x ≤ off st' → F x = []) ∧ (st'.accepted = false → p ≤ off st')) :
    AttemptsG cx t (fun x => F x ≠ []) (fun s st => (F s).head? = some (off st)) := by
  refine ⟨hsafe, ?_⟩
  intro L s st st' hL hs hg hst _ e1
  have h1 := hg.start; have h2 := hg.pos; have h3 := hg.lo
  simp only at h1 h2 h3
  simp only [Ctx.qend] at h2
  obtain ⟨st2, r1, r2, r3, r4⟩ := h st (off st) (by unfold off; omega) (by unfold off; omega) (by unfold off; omega)
  rw [r1] at e1
  obtain rfl := Option.some.inj e1
  cases ha : st2.accepted with
  | true =>
    have := r2 ha
    refine ⟨⟨fun _ => ?_, fun _ => rfl⟩, fun _ => this, by simp⟩
    intro hn; rw [hn] at this; cases this
  | false =>
    refine ⟨⟨by simp, fun hn => absurd (r3 ha _ (Nat.le_refl _) (r4 ha)) hn⟩, by simp, fun _ x h1 h2 => ?_⟩
    simp only [ne_eq, Classical.not_not]
    exact r3 ha x h1 h2

/-- The letter `a`, compiled. -/
def aN : Node := .exact [97] [97]

theorem a_test (c : Int) : testOf aN c = (Atom.chr 97).set c := test_exact 97 _ c

/-- `a?a` -/
def optGreedy : Sq := .cons (.chr 97) (.opt .greedy) (.cons (.chr 97) .once (.nil false))
/-- `a??a` -/
def optLazy : Sq := .cons (.chr 97) (.opt .lazy) (.cons (.chr 97) .once (.nil false))
/-- `a?+a` -/
def optPossessive : Sq := .cons (.chr 97) (.opt .possessive) (.cons (.chr 97) .once (.nil false))

theorem a_run (cx : Ctx) (inj : List K) {st : St} {p : Nat} (hp : st.pos = p) (hl : p ≤ cx.query.length) :
    run cx aN inj st = some (if ck cx.query p (Atom.chr 97).set then { st with accepted := true, pos := ((p + 1 : Nat) : Int) } else { st with accepted := false }) := by
  rw [charStep_of (m := aN) rfl, step_ck hp hl, ck_congr a_test]

theorem optPossessive_attempts (cx : Ctx) : AttemptsG cx (.possessive aN 0 1 [aN]) (fun x => optPossessive.picks cx.query x ≠ [])
    (fun s st => (optPossessive.picks cx.query s).head? = some (off st)) := by
  refine attempts_picks (F := fun x => optPossessive.picks cx.query x) (safeTree (nul := false) (by simp) (by decide +kernel) (by decide +kernel)) ?_
  intro st p hp hs hl
  have hx : ∀ x, optPossessive.picks cx.query x = if ck cx.query x (Atom.chr 97).set then (if ck cx.query (x + 1) (Atom.chr 97).set then [x + 2] else []) else [] := by
    intro x
    rw [optPossessive, picks_opt_possessive, picks_once, picks_once]
    split
    · rfl
    · simp_all
  simp only [run.eq_def (cx := cx) (.possessive aN 0 1 [aN]), possessiveMatch, possLoop, runs, dfs]
  rw [a_run cx [] hp hl]
  cases h0 : ck cx.query p (Atom.chr 97).set with
  | false =>
    simp only [Bool.false_eq_true, if_false, Nat.lt_irrefl]
    rw [a_run cx [] (p := p) (by simpa using hp) hl, h0]
    refine ⟨_, rfl, by simp, fun _ x h1 h2 => ?_, fun _ => by simp [off, hp]⟩
    have : x = p := by simp [off, hp] at h2; omega
    rw [hx, this, h0]; simp
  | true =>
    simp only [if_true]
    rw [a_run cx [] (p := p + 1) rfl (ck_lt h0)]
    cases h1 : ck cx.query (p + 1) (Atom.chr 97).set with
    | true =>
      refine ⟨_, rfl, fun _ => ?_, by simp, by simp⟩
      rw [hx, h0, h1]; simp [off]; omega
    | false =>
      refine ⟨_, rfl, by simp, fun _ x hx1 hx2 => ?_, fun _ => by simp [off]⟩
      have : x = p ∨ x = p + 1 := by simp [off] at hx2; omega
      rcases this with rfl | rfl <;> rw [hx] <;> simp [h0, h1]

theorem optLazy_attempts (cx : Ctx) : AttemptsG cx (.lazy aN 0 1 [aN]) (fun x => optLazy.picks cx.query x ≠ [])
    (fun s st => (optLazy.picks cx.query s).head? = some (off st)) := by
  refine attempts_picks (F := fun x => optLazy.picks cx.query x) (safeTree (nul := false) (by simp) (by decide +kernel) (by decide +kernel)) ?_
  intro st p hp hs hl
  have hx : ∀ x, optLazy.picks cx.query x = (if ck cx.query x (Atom.chr 97).set then [x + 1] else []) ++
      (if ck cx.query x (Atom.chr 97).set then (if ck cx.query (x + 1) (Atom.chr 97).set then [x + 2] else []) else []) := by
    intro x
    rw [optLazy, picks_opt_lazy, picks_once, picks_once]
    rfl
  simp only [run.eq_def (cx := cx) (.lazy aN 0 1 [aN]), lazyMatch, repLoop, lazyLoop, runs, dfs, List.isEmpty_cons, Bool.false_eq_true, if_false]
  cases h0 : ck cx.query p (Atom.chr 97).set with
  | false =>
    have hr : ∀ x, p ≤ x → x ≤ p → optLazy.picks cx.query x = [] := by
      intro x h1 h2
      have : x = p := by omega
      rw [hx, this, h0]; simp
    by_cases hlt : st.pos < cx.qend
    · rw [if_pos hlt, a_run cx [] hp hl, h0]
      simp only [Bool.false_eq_true, if_false]
      rw [a_run cx [] (p := p) (by simpa using hp) hl, h0]
      simp only [Bool.false_eq_true, if_false]
      exact ⟨_, rfl, by simp, fun _ x h1 h2 => hr x h1 (by simpa [off, hp] using h2), fun _ => by simp [off, hp]⟩
    · rw [if_neg hlt]
      simp only
      rw [a_run cx [] hp hl, h0]
      exact ⟨_, rfl, by simp, fun _ x h1 h2 => hr x h1 (by simpa [off, hp] using h2), fun _ => by simp [off, hp]⟩
  | true =>
    have hlt := ck_lt h0
    rw [if_pos (by simp only [Ctx.qend]; omega), a_run cx [] hp hl, h0]
    refine ⟨_, rfl, fun _ => ?_, by simp, by simp⟩
    rw [hx, h0]; simp [off]

theorem optGreedy_attempts (cx : Ctx) : AttemptsG cx (.greedy aN 0 1 [aN]) (fun x => optGreedy.picks cx.query x ≠ [])
    (fun s st => (optGreedy.picks cx.query s).head? = some (off st)) := by
  refine attempts_picks (F := fun x => optGreedy.picks cx.query x) (safeTree (nul := false) (by simp) (by decide +kernel) (by decide +kernel)) ?_
  intro st p hp hs hl
  have hx : ∀ x, optGreedy.picks cx.query x = 
      (if ck cx.query x (Atom.chr 97).set then (if ck cx.query (x + 1) (Atom.chr 97).set then [x + 2] else []) else []) ++
      (if ck cx.query x (Atom.chr 97).set then [x + 1] else []) := by
    intro x
    rw [optGreedy, picks_opt_greedy, picks_once, picks_once]
    rfl
  have hbt : ∀ x : St, greedyBacktrack [run cx aN] [] x = run cx aN [] x := fun x => rfl
  rw [run_greedy_opt cx _ (by decide), runs_one]
  simp only [optionalMatch, hbt]
  rw [a_run cx [] hp hl]
  cases h0 : ck cx.query p (Atom.chr 97).set with
  | false =>
    simp only [Bool.false_eq_true, if_false]
    rw [a_run cx [] (p := p) (by simpa using hp) hl, h0]
    simp only [Bool.false_eq_true, if_false, Bool.not_false, Bool.true_and]
    rw [if_neg (by simp; omega)]
    refine ⟨_, rfl, by simp, fun _ x h1 h2 => ?_, fun _ => by simp [off, hp]⟩
    have : x = p := by simp [off, hp] at h2; omega
    rw [hx, this, h0]; simp
  | true =>
    simp only [if_true]
    rw [a_run cx [] (p := p + 1) rfl (ck_lt h0)]
    cases h1 : ck cx.query (p + 1) (Atom.chr 97).set with
    | true =>
      refine ⟨_, rfl, fun _ => ?_, by simp, by simp⟩
      rw [hx, h0, h1]; simp [off]; omega
    | false =>
      simp only [Bool.false_eq_true, if_false, Bool.not_false, Bool.true_and]
      rw [if_pos (by simp; omega)]
      have hw : minSize aN = 1 := by decide
      rw [hw, a_run cx [] (p := p) (by simp) hl, h0]
      refine ⟨_, rfl, fun _ => ?_, by simp, by simp⟩
      rw [hx, h0, h1]; simp [off]

end ERegex

import Verif.Proofs.Single
import Verif.Proofs.Param
import Verif.Proofs.Steps
import Verif.Spec.Repeat
/-!
# Repetition of a single character: how many repetitions each quantifier takes

The rest of the pattern is an arbitrary `match` function whose result depends on the captures only through their number
(`Rest`); every tree's `match` is one.
-/
set_option autoImplicit false
namespace ERegex
open Spec

/-! ## class runs -/

theorem inClass_zero (q : List Int) (p : Int → Bool) (i : Nat) : InClass q p i 0 := by
  intro k hk; omega

theorem inClass_one {q : List Int} {p : Int → Bool} {i : Nat} {c : Int} (h : q[i]? = some c) (hp : p c = true) :
    InClass q p i 1 := by
  intro k hk
  have : k = 0 := by omega
  subst this
  exact ⟨c, by simpa using h, hp⟩

theorem inClass_add {q : List Int} {p : Int → Bool} {i m n : Nat} :
    InClass q p i (m + n) ↔ InClass q p i m ∧ InClass q p (i + m) n := by
  constructor
  · intro h
    refine ⟨fun k hk => h k (by omega), fun k hk => ?_⟩
    have := h (m + k) (by omega)
    rwa [← Nat.add_assoc] at this
  · intro ⟨h1, h2⟩ k hk
    by_cases hkm : k < m
    · exact h1 k hkm
    · have := h2 (k - m) (by omega)
      have e : i + m + (k - m) = i + k := by omega
      rwa [e] at this

theorem inClass_mono {q : List Int} {p : Int → Bool} {i m n : Nat} (h : InClass q p i n) (hm : m ≤ n) : InClass q p i m :=
  fun k hk => h k (by omega)

theorem inClass_len {q : List Int} {p : Int → Bool} {i n : Nat} (h : InClass q p i n) (hi : i ≤ q.length) : i + n ≤ q.length := by
  cases n with
  | zero => omega
  | succ n =>
    obtain ⟨c, hc, _⟩ := h n (by omega)
    have := (List.getElem?_eq_some_iff.1 hc).1
    omega

theorem inClass_not_one {q : List Int} {p : Int → Bool} {i : Nat} (h : ¬ InClass q p i 1) (c : Int) (hc : q[i]? = some c) :
    p c = false := by
  cases hp : p c with
  | false => rfl
  | true => exact absurd (inClass_one hc hp) h

/-! ## one character step -/

theorem step_yes {cx : Ctx} {p : Int → Bool} {st : St} {i : Nat} (hi : st.pos = i) (h : InClass cx.query p i 1) :
    charStep cx p st = some { st with pos := (i + 1 : Nat), accepted := true } := by
  obtain ⟨c, hc, hp⟩ := h 0 (by omega)
  simp only [Nat.add_zero] at hc
  have hl := (List.getElem?_eq_some_iff.1 hc).1
  have hq : st.pos < cx.qend := by rw [hi]; unfold Ctx.qend; omega
  have hr : cx.read st.pos = some c := by
    rw [read_query cx _ (by omega) hq, hi]; simpa using hc
  rw [charStep_read hq hr, hp]
  simp [hi]

theorem step_no {cx : Ctx} {p : Int → Bool} {st : St} {i : Nat} (hi : st.pos = i) (h : ¬ InClass cx.query p i 1) :
    charStep cx p st = some { st with accepted := false } := by
  by_cases hq : cx.qend ≤ st.pos
  · exact charStep_end hq
  · have hq' : st.pos < cx.qend := by omega
    obtain ⟨c, hr, hc⟩ := read_some cx st.pos (by omega) hq'
    rw [charStep_read hq' hr]
    rw [hi] at hc
    have : p c = false := inClass_not_one h c (by simpa using hc)
    simp [this]

theorem rep_yes {cx : Ctx} {p : Int → Bool} : ∀ (n : Nat) (st : St) (i : Nat), st.pos = i → InClass cx.query p i n →
    repLoop (charStep cx p) n st =
      some (true, { st with pos := (i + n : Nat), accepted := if n = 0 then st.accepted else true }) := by
  intro n
  induction n with
  | zero => intro st i hi _; simp [repLoop, ← hi]
  | succ n ih =>
    intro st i hi h
    rw [Nat.add_comm] at h
    obtain ⟨h1, h2⟩ := inClass_add.1 h
    simp only [repLoop, step_yes hi h1, if_true]
    rw [ih _ (i + 1) rfl h2]
    simp [Nat.add_assoc, Nat.add_comm 1 n]

theorem rep_no {cx : Ctx} {p : Int → Bool} : ∀ (n : Nat) (st : St) (i : Nat), st.pos = i → ¬ InClass cx.query p i n →
    ∃ d, d < n ∧ InClass cx.query p i d ∧
      repLoop (charStep cx p) n st = some (false, { st with pos := (i + d : Nat), accepted := false }) := by
  intro n
  induction n with
  | zero => intro st i _ h; exact absurd (inClass_zero _ _ _) h
  | succ n ih =>
    intro st i hi h
    by_cases h1 : InClass cx.query p i 1
    · have h2 : ¬ InClass cx.query p (i + 1) n := by
        intro h2
        apply h
        rw [Nat.add_comm]
        exact inClass_add.2 ⟨h1, h2⟩
      simp only [repLoop, step_yes hi h1, if_true]
      obtain ⟨d, hd, hin, e⟩ := ih { st with pos := (i + 1 : Nat), accepted := true } (i + 1) rfl h2
      refine ⟨1 + d, by omega, inClass_add.2 ⟨h1, hin⟩, ?_⟩
      rw [e]
      simp [Nat.add_assoc]
    · simp only [repLoop, step_no hi h1]
      exact ⟨0, by omega, inClass_zero _ _ _, by simp [← hi]⟩

theorem grow_char {cx : Ctx} {p : Int → Bool} : ∀ (n k : Nat) (st : St) (i : Nat), st.pos = i →
    ∃ d, d ≤ n ∧ InClass cx.query p i d ∧ (d < n → ¬ InClass cx.query p i (d + 1)) ∧
      growLoop (charStep cx p) n k st =
        some (k + d, { st with pos := (i + d : Nat), accepted := if n = 0 then st.accepted else true }) := by
  intro n
  induction n with
  | zero => intro k st i hi; exact ⟨0, by omega, inClass_zero _ _ _, by omega, by simp [growLoop, ← hi]⟩
  | succ n ih =>
    intro k st i hi
    by_cases h1 : InClass cx.query p i 1
    · obtain ⟨d, hd, hin, hmax, e⟩ := ih (k + 1) { st with pos := (i + 1 : Nat), accepted := true } (i + 1) rfl
      refine ⟨1 + d, by omega, inClass_add.2 ⟨h1, hin⟩, ?_, ?_⟩
      · intro hlt hc
        apply hmax (by omega)
        have e2 : 1 + d + 1 = 1 + (d + 1) := by omega
        rw [e2] at hc
        exact (inClass_add.1 hc).2
      · simp only [growLoop, step_yes hi h1, if_true]
        rw [e]
        simp [Nat.add_assoc]
    · simp only [growLoop, step_no hi h1]
      refine ⟨0, by omega, inClass_zero _ _ _, fun _ => by simpa using h1, ?_⟩
      simp [← hi]

/-! ## the rest of the pattern -/

/-- Capture arrays of the same length. -/
def SameLen (g h : List (Option (Int × Int))) : Prop := g.length = h.length

/-- A `match` function whose verdict and end do not depend on the content of the captures, and which keeps the start and
the number of captures. -/
structure Rest (b : K) : Prop where
  rel : RK SameLen b
  start : ∀ a c, b a = some c → c.start = a.start ∧ c.groups.length = a.groups.length

theorem writeOk_sameLen (i : Nat) : WriteOk SameLen i := by
  intro g h v hg
  simp only [SameLen] at hg ⊢
  exact ⟨by omega, fun _ => by simp [hg]⟩

theorem steps_len (I : List Nat) : Steps I (fun a b => b.start = a.start ∧ b.groups.length = a.groups.length) :=
  ⟨fun _ => ⟨rfl, rfl⟩, fun _ _ _ h1 h2 => ⟨h2.1.trans h1.1, h2.2.trans h1.2⟩, fun _ _ _ => ⟨rfl, rfl⟩,
    fun _ _ _ _ => ⟨rfl, by simp⟩⟩

/-- Every tree's `match` is a `Rest`, if the injected ones are. -/
theorem rest_run (cx : Ctx) (t : Node) (inj : List K) (hi : ∀ k ∈ inj, Rest k) : Rest (run cx t inj) :=
  ⟨run_rel SameLen cx t (fun i _ => writeOk_sameLen i) inj (fun k hk => (hi k hk).rel),
    run_steps (steps_len (slots t)) cx t (fun _ h => h) inj (fun k hk => (hi k hk).start)⟩

theorem rest_dfs (cx : Ctx) (cs : List Node) (inj : List K) (hi : ∀ k ∈ inj, Rest k) : Rest (dfs (runs cx cs) inj) :=
  ⟨dfs_rel _ _ (runs_rel SameLen cx cs (fun i _ => writeOk_sameLen i)) (fun k hk => (hi k hk).rel),
    dfs_steps (steps_len (slotss cs)) _ _ (runs_steps (steps_len (slotss cs)) cx cs (fun _ h => h)) (fun k hk => (hi k hk).start)⟩

theorem rest_dfsInj (inj : List K) (hi : ∀ k ∈ inj, Rest k) : Rest (dfsInj inj) :=
  ⟨dfsInj_rel (fun k hk => (hi k hk).rel), dfsInj_steps (steps_len []) (fun k hk => (hi k hk).start)⟩

/-- A failure (at a position that is not before the query) restores the position. -/
def Clean (b : K) : Prop := ∀ st st', 0 ≤ st.pos → b st = some st' → st'.accepted = false → st'.pos = st.pos

/-- Verdict (accepted?, end) of `b` at position `x`, tried from state `st`. -/
def verdict (b : K) (st : St) (x : Int) : Option (Bool × Int) :=
  (b { st with pos := x, accepted := true }).map (fun r => (r.accepted, r.pos))

theorem verdict_some {b : K} {st : St} {x : Int} {f : Bool} {y : Int} (h : verdict b st x = some (f, y)) :
    ∃ r, b { st with pos := x, accepted := true } = some r ∧ r.accepted = f ∧ r.pos = y := by
  unfold verdict at h
  cases hb : b { st with pos := x, accepted := true } with
  | none => rw [hb] at h; simp at h
  | some r => rw [hb] at h; simp at h; exact ⟨r, rfl, h.1, h.2⟩

theorem verdict_congr {b : K} (hb : Rest b) {a c : St} (h1 : a.start = c.start) (h2 : a.groups.length = c.groups.length) (x : Int) :
    verdict b a x = verdict b c x := by
  have := hb.rel { a with pos := x, accepted := true } { c with pos := x, accepted := true } ⟨h1, rfl, rfl, h2⟩
  unfold verdict
  rcases this.cases with ⟨e1, e2⟩ | ⟨r, s, e1, e2, hr⟩
  · rw [e1, e2]
  · rw [e1, e2]; simp [hr.2.1, hr.2.2.1]

theorem verdict_eq {b : K} {st r : St} {x : Int} (hx : st.pos = x) (ha : st.accepted = true) (e : b st = some r) :
    verdict b st x = some (r.accepted, r.pos) := by
  have : ({ st with pos := x, accepted := true } : St) = st := by
    obtain ⟨s, p, g, ac⟩ := st
    simp only at hx ha
    subst hx; subst ha; rfl
  unfold verdict
  rw [this, e]
  rfl

/-! ## greedy -/

theorem scan_char {cx : Ctx} {p : Int → Bool} {st : St} {j n : Nat} (h : InClass cx.query p j 1) :
    scanBack (charStep cx p) (n + 1) (j : Int) st = some { st with pos := (j : Int), accepted := true } := by
  have := step_yes (cx := cx) (p := p) (st := { st with pos := (j : Int) }) (i := j) rfl h
  simp [scanBack, this]

/-- The backtracking loop over a run of class characters: repetitions are given back one by one. -/
theorem bt_char {cx : Ctx} {p : Int → Bool} {bt : K} (hb : Rest bt) (hcl : Clean bt) (s : Nat) : ∀ (n : Nat) (st : St) (f : Bool)
    (st' : St), st.pos = (s + n : Nat) → st.accepted = true → InClass cx.query p s n →
    btLoop bt (charStep cx p) (s : Int) n st = some (f, st') →
    st'.start = st.start ∧ st'.groups.length = st.groups.length ∧
    (f = true → ∃ d, 0 < d ∧ d ≤ n ∧ verdict bt st (s + d : Nat) = some (true, st'.pos) ∧ st'.accepted = true ∧
      ∀ d', d < d' → d' ≤ n → ∃ y, verdict bt st (s + d' : Nat) = some (false, y)) ∧
    (f = false → st'.pos = s ∧ st'.accepted = true ∧
      ∀ d', 0 < d' → d' ≤ n → ∃ y, verdict bt st (s + d' : Nat) = some (false, y)) := by
  intro n
  induction n with
  | zero =>
    intro st f st' hp ha _ e
    simp only [btLoop, Option.some.injEq, Prod.mk.injEq] at e
    obtain ⟨rfl, rfl⟩ := e
    exact ⟨rfl, rfl, by simp, fun _ => ⟨by simpa using hp, ha, by intro d' h1 h2; omega⟩⟩
  | succ n ih =>
    intro st f st' hp ha hin e
    simp only [btLoop] at e
    split at e
    · simp at e
    · rename_i st1 h1
      have hk := hb.start _ _ h1
      have hv := verdict_eq hp ha h1
      split at e
      · rename_i hacc
        simp only [Option.some.injEq, Prod.mk.injEq] at e
        obtain ⟨rfl, rfl⟩ := e
        refine ⟨hk.1, hk.2, fun _ => ⟨n + 1, by omega, by omega, ?_, hacc, by intro d' h1 h2; omega⟩, by simp⟩
        rw [hv, hacc]
      · rename_i hrej
        have hrej' : st1.accepted = false := by simpa using hrej
        have hpos := hcl _ _ (by rw [hp]; omega) h1 hrej'
        have e1 : (st1.pos - (s : Int)).toNat = n + 1 := by rw [hpos, hp]; omega
        have e2 : st1.pos - 1 = ((s + n : Nat) : Int) := by rw [hpos, hp]; push_cast; omega
        have hlast : InClass cx.query p (s + n) 1 := (inClass_add.1 hin).2
        rw [e1, e2, scan_char hlast] at e
        simp only at e
        obtain ⟨k1, k2, k3, k4⟩ := ih _ f st' rfl rfl (inClass_mono hin (by omega)) e
        have hcg : ∀ x, verdict bt { st1 with pos := ((s + n : Nat) : Int), accepted := true } x = verdict bt st x :=
          fun x => verdict_congr hb (by simpa using hk.1) (by simpa using hk.2) x
        refine ⟨k1.trans hk.1, k2.trans hk.2, ?_, ?_⟩
        · intro hf
          obtain ⟨d, hd1, hd2, hd3, hd4, hd5⟩ := k3 hf
          refine ⟨d, hd1, by omega, by rw [← hcg]; exact hd3, hd4, ?_⟩
          intro d' hlt hle
          by_cases hd' : d' = n + 1
          · subst hd'; exact ⟨_, by rw [hv, hrej']⟩
          · obtain ⟨y, hy⟩ := hd5 d' hlt (by omega)
            exact ⟨y, by rw [← hcg]; exact hy⟩
        · intro hf
          obtain ⟨k5, k6, k7⟩ := k4 hf
          refine ⟨k5, k6, ?_⟩
          intro d' hlt hle
          by_cases hd' : d' = n + 1
          · subst hd'; exact ⟨_, by rw [hv, hrej']⟩
          · obtain ⟨y, hy⟩ := k7 d' hlt (by omega)
            exact ⟨y, by rw [← hcg]; exact hy⟩

theorem rest_backtrack (cx : Ctx) (cs : List Node) (inj : List K) (hi : ∀ k ∈ inj, Rest k) :
    Rest (greedyBacktrack (runs cx cs) inj) :=
  ⟨backtrack_rel (runs_rel SameLen cx cs (fun i _ => writeOk_sameLen i)) (fun k hk => (hi k hk).rel),
    backtrack_steps (steps_len (slotss cs)) (runs_steps (steps_len (slotss cs)) cx cs (fun _ h => h)) (fun k hk => (hi k hk).start)⟩

/-- What a greedy repetition of a class does: it takes the longest run `k` of class characters within the bounds, then gives
back one repetition after the other until the rest matches; at the lower bound the rest is tried a last time. -/
theorem greedy_char {cx : Ctx} {p : Int → Bool} {lo hi : Nat} {cs : List M} {inj : List K}
    (hb : Rest (greedyBacktrack cs inj)) (hcl : Clean (greedyBacktrack cs inj)) (hd : Rest (dfs cs [])) (hlh : lo ≤ hi)
    {st st' : St} {i : Nat} (hi' : st.pos = i) (e : greedyMatch (charStep cx p) lo hi cs inj st = some st') :
    (¬ InClass cx.query p i lo ∧ st'.accepted = false) ∨
    (∃ k, lo ≤ k ∧ k ≤ hi ∧ InClass cx.query p i k ∧ (k < hi → ¬ InClass cx.query p i (k + 1)) ∧
      ((∃ d, lo < d ∧ d ≤ k ∧ verdict (greedyBacktrack cs inj) st (i + d : Nat) = some (true, st'.pos) ∧ st'.accepted = true ∧
          ∀ d', d < d' → d' ≤ k → ∃ y, verdict (greedyBacktrack cs inj) st (i + d' : Nat) = some (false, y)) ∨
       (verdict (dfs cs []) st (i + lo : Nat) = some (st'.accepted, st'.pos) ∧
          ∀ d', lo < d' → d' ≤ k → ∃ y, verdict (greedyBacktrack cs inj) st (i + d' : Nat) = some (false, y)))) := by
  simp only [greedyMatch] at e
  by_cases hlo : InClass cx.query p i lo
  · right
    rw [rep_yes lo st i hi' hlo] at e
    simp only at e
    obtain ⟨d, hd1, hd2, hd3, e2⟩ := grow_char (cx := cx) (p := p) (hi - lo) lo
      { st with pos := (i + lo : Nat), accepted := if lo = 0 then st.accepted else true } (i + lo) rfl
    rw [e2] at e
    simp only [Nat.add_sub_cancel_left] at e
    refine ⟨lo + d, by omega, by omega, inClass_add.2 ⟨hlo, hd2⟩, ?_, ?_⟩
    · intro hlt hc
      apply hd3 (by omega)
      rw [Nat.add_assoc] at hc
      exact (inClass_add.1 hc).2
    · cases hdz : d with
      | zero =>
        subst hdz
        simp only [btLoop] at e
        right
        refine ⟨?_, by intro d' h1 h2; omega⟩
        have := verdict_eq (b := dfs cs []) (x := ((i + lo : Nat) : Int)) rfl rfl e
        rw [← this]
        exact verdict_congr hd rfl rfl _
      | succ d0 =>
        have hne : hi - lo ≠ 0 := by omega
        rw [if_neg hne] at e
        rw [← hdz]
        split at e
        · simp at e
        · rename_i st3 h3
          simp only [Option.some.injEq] at e
          subst e
          obtain ⟨k1, k2, k3, _⟩ := bt_char hb hcl (i + lo) d _ true st3 (by simp) rfl hd2 h3
          obtain ⟨x, hx1, hx2, hx3, hx4, hx5⟩ := k3 rfl
          left
          have hcg : ∀ x, verdict (greedyBacktrack cs inj) { st with pos := ((i + lo + d : Nat) : Int), accepted := true } x =
              verdict (greedyBacktrack cs inj) st x := fun x => verdict_congr hb rfl rfl x
          refine ⟨lo + x, by omega, by omega, ?_, hx4, ?_⟩
          · rw [← Nat.add_assoc, ← hcg]; exact hx3
          · intro d' h1 h2
            obtain ⟨y, hy⟩ := hx5 (d' - lo) (by omega) (by omega)
            rw [hcg] at hy
            have e3 : i + lo + (d' - lo) = i + d' := by omega
            rw [e3] at hy
            exact ⟨y, hy⟩
        · rename_i st3 h3
          obtain ⟨k1, k2, _, k4⟩ := bt_char hb hcl (i + lo) d _ false st3 (by simp) rfl hd2 h3
          obtain ⟨k5, k6, k7⟩ := k4 rfl
          right
          have hcg : ∀ x, verdict (greedyBacktrack cs inj) { st with pos := ((i + lo + d : Nat) : Int), accepted := true } x =
              verdict (greedyBacktrack cs inj) st x := fun x => verdict_congr hb rfl rfl x
          refine ⟨?_, ?_⟩
          · have := verdict_eq (b := dfs cs []) (x := ((i + lo : Nat) : Int)) (by simpa using k5) rfl e
            rw [← this]
            exact verdict_congr hd (by simpa using k1.symm) (by simpa using k2.symm) _
          · intro d' h1 h2
            obtain ⟨y, hy⟩ := k7 (d' - lo) (by omega) (by omega)
            rw [hcg] at hy
            have e3 : i + lo + (d' - lo) = i + d' := by omega
            rw [e3] at hy
            exact ⟨y, hy⟩
  · left
    obtain ⟨d, _, _, e1⟩ := rep_no lo st i hi' hlo
    rw [e1] at e
    simp only [Option.some.injEq] at e
    exact ⟨hlo, by rw [← e]⟩

/-- A number of repetitions that the bounds, the text and the rest of the pattern allow. -/
def Works (cx : Ctx) (p : Int → Bool) (lo hi : Nat) (rest : K) (st : St) (i j : Nat) : Prop :=
  lo ≤ j ∧ j ≤ hi ∧ InClass cx.query p i j ∧ ∃ y, verdict rest st (i + j : Nat) = some (true, y)

/-- The rest of the pattern is tried, and rejected, after `j` repetitions. -/
def Rejects (rest : K) (st : St) (i j : Nat) : Prop := ∃ y, verdict rest st (i + j : Nat) = some (false, y)

/-- Greedy: the largest number of repetitions that works, failure only if none works. -/
theorem greedy_largest {cx : Ctx} {p : Int → Bool} {lo hi : Nat} {cs : List M} {inj : List K} (hne : cs.isEmpty = false)
    (hd : Rest (dfs cs [])) (hcl : Clean (dfs cs [])) (hlh : lo ≤ hi)
    {st st' : St} {i : Nat} (hi' : st.pos = i) (e : greedyMatch (charStep cx p) lo hi cs inj st = some st') :
    (st'.accepted = true → ∃ j, Largest (Works cx p lo hi (dfs cs []) st i) j ∧
      verdict (dfs cs []) st (i + j : Nat) = some (true, st'.pos)) ∧
    (st'.accepted = false → ∀ j, lo ≤ j → j ≤ hi → InClass cx.query p i j → Rejects (dfs cs []) st i j) := by
  have hbt : greedyBacktrack cs inj = dfs cs [] := by funext a; simp [greedyBacktrack, hne]
  rcases greedy_char (by rw [hbt]; exact hd) (by rw [hbt]; exact hcl) hd hlh hi' e with ⟨h1, h2⟩ | ⟨k, hk1, hk2, hk3, hk4, hk⟩
  · refine ⟨fun h => by rw [h2] at h; simp at h, fun _ j hj1 _ hj3 => absurd (inClass_mono hj3 hj1) h1⟩
  · rw [hbt] at hk
    have hmax : ∀ j, Works cx p lo hi (dfs cs []) st i j → j ≤ k := by
      intro j hj
      by_cases hjk : j ≤ k
      · exact hjk
      · exact absurd (inClass_mono hj.2.2.1 (by omega)) (hk4 (by have := hj.2.1; omega))
    rcases hk with ⟨d, hd1, hd2, hd3, hd4, hd5⟩ | ⟨hv, hrej⟩
    · refine ⟨fun _ => ⟨d, ⟨⟨by omega, by omega, inClass_mono hk3 hd2, _, hd3⟩, ?_⟩, hd3⟩, fun h => by rw [hd4] at h; simp at h⟩
      intro m hm
      by_cases hmd : m ≤ d
      · exact hmd
      · obtain ⟨y, hy⟩ := hd5 m (by omega) (hmax m hm)
        obtain ⟨z, hz⟩ := hm.2.2.2
        rw [hy] at hz; simp at hz
    · have hnot : ∀ m, Works cx p lo hi (dfs cs []) st i m → m = lo := by
        intro m hm
        by_cases hml : m ≤ lo
        · have := hm.1; omega
        · obtain ⟨y, hy⟩ := hrej m (by omega) (hmax m hm)
          obtain ⟨z, hz⟩ := hm.2.2.2
          rw [hy] at hz; simp at hz
      refine ⟨fun ha => ?_, fun ha j hj1 hj2 hj3 => ?_⟩
      · rw [ha] at hv
        exact ⟨lo, ⟨⟨by omega, hlh, inClass_mono hk3 hk1, _, hv⟩, fun m hm => by rw [hnot m hm]; omega⟩, hv⟩
      · by_cases hjl : j = lo
        · subst hjl; exact ⟨_, by rw [hv, ha]⟩
        · refine hrej j (by omega) ?_
          by_cases hjk : j ≤ k
          · exact hjk
          · exact absurd (inClass_mono hj3 (by omega)) (hk4 (by omega))

/-! ## steps that may move on failure -/

/-- A step that succeeds exactly on the characters of a class. -/
structure StepSpec (cx : Ctx) (p : Int → Bool) (m : K) : Prop where
  yes : ∀ (st : St) (i : Nat), st.pos = i → InClass cx.query p i 1 →
    m st = some { st with pos := (i + 1 : Nat), accepted := true }
  no : ∀ (st : St) (i : Nat), st.pos = i → ¬ InClass cx.query p i 1 →
    ∃ r, m st = some r ∧ r.accepted = false ∧ r.start = st.start ∧ r.groups = st.groups

theorem stepSpec_char (cx : Ctx) (p : Int → Bool) : StepSpec cx p (charStep cx p) :=
  ⟨fun _ _ h1 h2 => step_yes h1 h2, fun _ _ h1 h2 => ⟨_, step_no h1 h2, rfl, rfl, rfl⟩⟩

theorem stepSpec_skip (cx : Ctx) (p : Int → Bool) : StepSpec cx p (skipStep cx p) := by
  refine ⟨?_, ?_⟩
  · intro st i hi h
    obtain ⟨c, hc, hp⟩ := h 0 (by omega)
    simp only [Nat.add_zero] at hc
    have hl := (List.getElem?_eq_some_iff.1 hc).1
    have hq : st.pos < cx.qend := by rw [hi]; unfold Ctx.qend; omega
    have hr : cx.read st.pos = some c := by
      rw [read_query cx _ (by omega) hq, hi]; simpa using hc
    have hq' : ¬ (st.pos ≥ cx.qend) := by omega
    unfold skipStep
    rw [if_neg hq', hr]
    simp [hp, hi]
  · intro st i hi h
    simp only [skipStep]
    by_cases hq : st.pos ≥ cx.qend
    · exact ⟨{ st with accepted := false }, by rw [if_pos hq], rfl, rfl, rfl⟩
    · obtain ⟨c, hr, hc⟩ := read_some cx st.pos (by omega) (by omega)
      rw [hi] at hc
      have : p c = false := inClass_not_one h c (by simpa using hc)
      exact ⟨{ st with accepted := p c, pos := st.pos + 1 }, by rw [if_neg hq, hr], this, rfl, rfl⟩

/-- Single-character or skipping: the two kinds of one-character trees. -/
def oneCh (t : Node) : Bool := single t || skipping t

theorem stepSpec_run (cx : Ctx) (t : Node) (h : oneCh t = true) (inj : List K) : StepSpec cx (testOf t) (run cx t inj) := by
  simp only [oneCh, Bool.or_eq_true] at h
  rcases h with h | h
  · have : run cx t inj = charStep cx (testOf t) := funext (run_single cx t h inj)
    rw [this]; exact stepSpec_char _ _
  · have : run cx t inj = skipStep cx (testOf t) := funext (run_skipping cx t h inj)
    rw [this]; exact stepSpec_skip _ _

theorem repS_yes {cx : Ctx} {p : Int → Bool} {m : K} (hm : StepSpec cx p m) : ∀ (n : Nat) (st : St) (i : Nat), st.pos = i →
    InClass cx.query p i n →
    repLoop m n st = some (true, { st with pos := (i + n : Nat), accepted := if n = 0 then st.accepted else true }) := by
  intro n
  induction n with
  | zero => intro st i hi _; simp [repLoop, ← hi]
  | succ n ih =>
    intro st i hi h
    rw [Nat.add_comm] at h
    obtain ⟨h1, h2⟩ := inClass_add.1 h
    simp only [repLoop, hm.yes st i hi h1, if_true]
    rw [ih _ (i + 1) rfl h2]
    simp [Nat.add_assoc, Nat.add_comm 1 n]

theorem repS_no {cx : Ctx} {p : Int → Bool} {m : K} (hm : StepSpec cx p m) : ∀ (n : Nat) (st : St) (i : Nat), st.pos = i →
    ¬ InClass cx.query p i n → ∃ r, repLoop m n st = some (false, r) ∧ r.accepted = false := by
  intro n
  induction n with
  | zero => intro st i _ h; exact absurd (inClass_zero _ _ _) h
  | succ n ih =>
    intro st i hi h
    by_cases h1 : InClass cx.query p i 1
    · have h2 : ¬ InClass cx.query p (i + 1) n := by
        intro h2
        apply h
        rw [Nat.add_comm]
        exact inClass_add.2 ⟨h1, h2⟩
      simp only [repLoop, hm.yes st i hi h1, if_true]
      exact ih { st with pos := (i + 1 : Nat), accepted := true } (i + 1) rfl h2
    · obtain ⟨r, e, hr, _⟩ := hm.no st i hi h1
      simp only [repLoop, e, hr]
      exact ⟨r, by simp, hr⟩

/-! ## exact repetition -/

/-- `X{n}` : exactly `n` class characters, then the rest. -/
theorem repeated_char {cx : Ctx} {p : Int → Bool} {m : K} (hm : StepSpec cx p m) {n : Nat} {cs : List M} {inj : List K}
    (hd : Rest (dfs cs [])) {st st' : St} {i : Nat} (hi' : st.pos = i) (hf : st.accepted = true ∨ 0 < n)
    (e : repeatedMatch m n cs inj st = some st') :
    (InClass cx.query p i n → verdict (dfs cs []) st (i + n : Nat) = some (st'.accepted, st'.pos)) ∧
    (¬ InClass cx.query p i n → st'.accepted = false) := by
  simp only [repeatedMatch] at e
  refine ⟨fun h => ?_, fun h => ?_⟩
  · rw [repS_yes hm n st i hi' h] at e
    simp only at e
    have hacc : (if n = 0 then st.accepted else true) = true := by
      split
      · rcases hf with hf | hf
        · exact hf
        · omega
      · rfl
    rw [hacc] at e
    rw [← verdict_eq (b := dfs cs []) (x := ((i + n : Nat) : Int)) rfl rfl e]
    exact verdict_congr hd rfl rfl _
  · obtain ⟨r, e1, hr⟩ := repS_no hm n st i hi' h
    rw [e1] at e
    simp only [Option.some.injEq] at e
    rw [← e]; exact hr

/-! ## possessive -/

theorem poss_char {cx : Ctx} {p : Int → Bool} {m : K} (hm : StepSpec cx p m) (lo : Nat) : ∀ (n c : Nat) (st : St) (i : Nat), st.pos = i →
    ∃ d, d ≤ n ∧ InClass cx.query p i d ∧ (d < n → ¬ InClass cx.query p i (d + 1)) ∧
      ((d = n ∨ lo ≤ c + d) → possLoop m lo n c (i : Int) st =
        some (true, { st with pos := (i + d : Nat), accepted := if n = 0 then st.accepted else true })) ∧
      (d < n → c + d < lo → ∃ r, possLoop m lo n c (i : Int) st = some (false, r) ∧ r.accepted = false) := by
  intro n
  induction n with
  | zero =>
    intro c st i hi
    exact ⟨0, by omega, inClass_zero _ _ _, by omega, by simp [possLoop, ← hi], by omega⟩
  | succ n ih =>
    intro c st i hi
    by_cases h1 : InClass cx.query p i 1
    · obtain ⟨d, hd, hin, hmax, e1, e2⟩ := ih (c + 1) { st with pos := (i + 1 : Nat), accepted := true } (i + 1) rfl
      refine ⟨1 + d, by omega, inClass_add.2 ⟨h1, hin⟩, ?_, ?_, ?_⟩
      · intro hlt hc
        apply hmax (by omega)
        have e2 : 1 + d + 1 = 1 + (d + 1) := by omega
        rw [e2] at hc
        exact (inClass_add.1 hc).2
      · intro h
        simp only [possLoop, hm.yes st i hi h1, if_true]
        rw [e1 (by omega)]
        simp [Nat.add_assoc]
      · intro hlt hlo
        simp only [possLoop, hm.yes st i hi h1, if_true]
        exact e2 (by omega) (by omega)
    · obtain ⟨r, e, hr, hs, hg⟩ := hm.no st i hi h1
      refine ⟨0, by omega, inClass_zero _ _ _, fun _ => by simpa using h1, ?_, ?_⟩
      · intro h
        have hnl : ¬ c < lo := by omega
        simp only [possLoop, e, hr, Bool.false_eq_true, if_false, hnl]
        obtain ⟨s, q, g, ac⟩ := r
        simp only at hs hg
        simp [hs, hg]
      · intro _ hlo
        simp only [Nat.add_zero] at hlo
        simp only [possLoop, e, hr, Bool.false_eq_true, if_false, hlo, if_true]
        exact ⟨r, rfl, hr⟩

/-- Possessive: the longest run within the bounds, then the rest, once. -/
theorem possessive_char {cx : Ctx} {p : Int → Bool} {m : M} {inj : List K} (hm : StepSpec cx p (m inj)) {lo hi : Nat}
    {cs : List M} (hd : Rest (dfs cs [])) (hlh : lo ≤ hi) {st st' : St} {i : Nat} (hi' : st.pos = i)
    (hf : st.accepted = true ∨ 0 < hi) (e : possessiveMatch m lo hi cs inj st = some st') :
    (InClass cx.query p i lo → ∃ k, Largest (fun j => j ≤ hi ∧ InClass cx.query p i j) k ∧ lo ≤ k ∧
      verdict (dfs cs []) st (i + k : Nat) = some (st'.accepted, st'.pos)) ∧
    (¬ InClass cx.query p i lo → st'.accepted = false) := by
  obtain ⟨d, hd1, hd2, hd3, e1, e2⟩ := poss_char hm lo hi 0 st i hi'
  simp only [possessiveMatch] at e
  rw [hi'] at e
  have hlargest : Largest (fun j => j ≤ hi ∧ InClass cx.query p i j) d := by
    refine ⟨⟨hd1, hd2⟩, ?_⟩
    intro j hj
    by_cases hjd : j ≤ d
    · exact hjd
    · exact absurd (inClass_mono hj.2 (by omega)) (hd3 (by omega))
  refine ⟨fun h => ?_, fun h => ?_⟩
  · have hlo : lo ≤ d := hlargest.2 lo ⟨hlh, h⟩
    refine ⟨d, hlargest, hlo, ?_⟩
    rw [e1 (Or.inr (by omega))] at e
    simp only at e
    have hacc : (if hi = 0 then st.accepted else true) = true := by
      split
      · rcases hf with hf | hf
        · exact hf
        · omega
      · rfl
    rw [hacc] at e
    rw [← verdict_eq (b := dfs cs []) (x := ((i + d : Nat) : Int)) rfl rfl e]
    exact verdict_congr hd rfl rfl _
  · have hlt : d < lo := by
      by_cases hh : d < lo
      · exact hh
      · exact absurd (inClass_mono hd2 (by omega)) h
    obtain ⟨r, e3, hr⟩ := e2 (by omega) (by omega)
    rw [e3] at e
    simp only [Option.some.injEq] at e
    rw [← e]; exact hr

/-! ## lazy -/

/-- A function that does not look at the flag. -/
def FlagFree (b : K) : Prop := ∀ st f, b { st with accepted := f } = b st

theorem verdict_eq' {b : K} {st r : St} {x : Int} (hx : st.pos = x) (ha : st.accepted = true ∨ FlagFree b) (e : b st = some r) :
    verdict b st x = some (r.accepted, r.pos) := by
  rcases ha with ha | ha
  · exact verdict_eq hx ha e
  · have h1 : b { st with accepted := true } = some r := by rw [ha]; exact e
    have := verdict_eq (st := { st with accepted := true }) hx rfl h1
    unfold verdict at this ⊢
    simpa using this

theorem lazy_loop_char {cx : Ctx} {p : Int → Bool} {m : K} (hm : StepSpec cx p m) {cs : List M} {inj : List K} {start : Int}
    (hne : cs.isEmpty = false) (hd : Rest (dfs cs [])) (hcl : Clean (dfs cs [])) : ∀ (n : Nat) (st : St) (f : Bool) (st' : St) (i : Nat),
    st.pos = i → (st.accepted = true ∨ FlagFree (dfs cs [])) → i ≤ cx.query.length →
    lazyLoop cx m cs inj start n st = some (f, st') →
    (f = true → (st'.accepted = true ∧ ∃ d, d ≤ n ∧ InClass cx.query p i d ∧
        verdict (dfs cs []) st (i + d : Nat) = some (true, st'.pos) ∧
        ∀ d', d' < d → ∃ y, verdict (dfs cs []) st (i + d' : Nat) = some (false, y)) ∨
      (st'.accepted = false ∧ ∀ d, d ≤ n → InClass cx.query p i d → ∃ y, verdict (dfs cs []) st (i + d : Nat) = some (false, y))) ∧
    (f = false → st'.start = st.start ∧ st'.groups.length = st.groups.length ∧ (st'.accepted = true ∨ FlagFree (dfs cs [])) ∧
      ∃ d, d ≤ n ∧ InClass cx.query p i d ∧ (d < n → ¬ InClass cx.query p i (d + 1)) ∧ st'.pos = (i + d : Nat) ∧
        ∀ d', d' < d → ∃ y, verdict (dfs cs []) st (i + d' : Nat) = some (false, y)) := by
  intro n
  induction n with
  | zero =>
    intro st f st' i hi ha hl e
    simp only [lazyLoop, Option.some.injEq, Prod.mk.injEq] at e
    obtain ⟨rfl, rfl⟩ := e
    exact ⟨by simp, fun _ => ⟨rfl, rfl, ha, 0, by omega, inClass_zero _ _ _, by omega, by simpa using hi, by intro d' h; omega⟩⟩
  | succ n ih =>
    intro st f st' i hi ha hl e
    simp only [lazyLoop] at e
    split at e
    · rename_i hlt
      rw [if_neg (by simp [hne])] at e
      split at e
      · simp at e
      · rename_i st1 h1
        have hk := hd.start _ _ h1
        have hv := verdict_eq' hi ha h1
        split at e
        · rename_i hacc
          simp only [Option.some.injEq, Prod.mk.injEq] at e
          obtain ⟨rfl, rfl⟩ := e
          refine ⟨fun _ => Or.inl ⟨hacc, 0, by omega, inClass_zero _ _ _, ?_, by intro d' h; omega⟩, by simp⟩
          rw [← hacc]; simpa using hv
        · rename_i hrej
          have hrej' : st1.accepted = false := by simpa using hrej
          have hpos : st1.pos = i := by rw [hcl _ _ (by rw [hi]; omega) h1 hrej', hi]
          rw [hrej'] at hv
          by_cases h1c : InClass cx.query p i 1
          · rw [hm.yes st1 i hpos h1c] at e
            simp only [if_true] at e
            obtain ⟨k1, k2⟩ := ih _ f st' (i + 1) rfl (Or.inl rfl) (inClass_len h1c hl) e
            have hcg : ∀ x, verdict (dfs cs []) { st1 with pos := ((i + 1 : Nat) : Int), accepted := true } x =
                verdict (dfs cs []) st x := fun x => verdict_congr hd (by simpa using hk.1) (by simpa using hk.2) x
            refine ⟨?_, ?_⟩
            · intro hf
              rcases k1 hf with ⟨ka, d, kd1, kd2, kd3, kd4⟩ | ⟨ka, kr⟩
              · left
                refine ⟨ka, 1 + d, by omega, inClass_add.2 ⟨h1c, kd2⟩, ?_, ?_⟩
                · rw [hcg, Nat.add_assoc] at kd3; exact kd3
                · intro d' hd'
                  cases d' with
                  | zero => exact ⟨_, by simpa using hv⟩
                  | succ d' =>
                    obtain ⟨y, hy⟩ := kd4 d' (by omega)
                    rw [hcg, Nat.add_assoc, Nat.add_comm 1 d'] at hy
                    exact ⟨y, hy⟩
              · right
                refine ⟨ka, ?_⟩
                intro d hdn hin
                cases d with
                | zero => exact ⟨_, by simpa using hv⟩
                | succ d =>
                  rw [Nat.add_comm d 1] at hin
                  obtain ⟨y, hy⟩ := kr d (by omega) (inClass_add.1 hin).2
                  rw [hcg, Nat.add_assoc, Nat.add_comm 1 d] at hy
                  exact ⟨y, hy⟩
            · intro hf
              obtain ⟨q1, q2, q3, d, q4, q5, q6, q7, q8⟩ := k2 hf
              refine ⟨q1.trans (by simpa using hk.1), q2.trans (by simpa using hk.2), q3, 1 + d, by omega,
                inClass_add.2 ⟨h1c, q5⟩, ?_, by rw [q7, Nat.add_assoc], ?_⟩
              · intro hlt' hc
                apply q6 (by omega)
                have e2 : 1 + d + 1 = 1 + (d + 1) := by omega
                rw [e2] at hc
                exact (inClass_add.1 hc).2
              · intro d' hd'
                cases d' with
                | zero => exact ⟨_, by simpa using hv⟩
                | succ d' =>
                  obtain ⟨y, hy⟩ := q8 d' (by omega)
                  rw [hcg, Nat.add_assoc, Nat.add_comm 1 d'] at hy
                  exact ⟨y, hy⟩
          · obtain ⟨r, e1, hr, _⟩ := hm.no st1 i hpos h1c
            rw [e1] at e
            simp only [hr, Bool.false_eq_true, if_false, Option.some.injEq, Prod.mk.injEq] at e
            obtain ⟨rfl, rfl⟩ := e
            refine ⟨fun _ => Or.inr ⟨rfl, ?_⟩, by simp⟩
            intro d _ hin
            cases d with
            | zero => exact ⟨_, by simpa using hv⟩
            | succ d => exact absurd (inClass_mono hin (by omega)) h1c
    · rename_i hge
      simp only [Option.some.injEq, Prod.mk.injEq] at e
      obtain ⟨rfl, rfl⟩ := e
      refine ⟨by simp, fun _ => ⟨rfl, rfl, ha, 0, by omega, inClass_zero _ _ _, ?_, by simpa using hi, by intro d' h; omega⟩⟩
      intro _ hc
      have := inClass_len hc hl
      rw [hi] at hge
      unfold Ctx.qend at hge
      omega

/-- Lazy: the smallest number of repetitions that works, failure only if none works. -/
theorem lazy_smallest {cx : Ctx} {p : Int → Bool} {m : K} (hm : StepSpec cx p m) {lo hi : Nat} {cs : List M} {inj : List K}
    (hne : cs.isEmpty = false) (hd : Rest (dfs cs [])) (hcl : Clean (dfs cs [])) (hlh : lo ≤ hi)
    {st st' : St} {i : Nat} (hi' : st.pos = i) (hl : i ≤ cx.query.length)
    (hf : st.accepted = true ∨ 0 < lo ∨ FlagFree (dfs cs [])) (e : lazyMatch cx m lo hi cs inj st = some st') :
    (st'.accepted = true → ∃ j, Smallest (Works cx p lo hi (dfs cs []) st i) j ∧
      verdict (dfs cs []) st (i + j : Nat) = some (true, st'.pos)) ∧
    (st'.accepted = false → ∀ j, lo ≤ j → j ≤ hi → InClass cx.query p i j → Rejects (dfs cs []) st i j) := by
  simp only [lazyMatch] at e
  by_cases hlo : InClass cx.query p i lo
  · rw [repS_yes hm lo st i hi' hlo] at e
    simp only at e
    have hcg : ∀ x b, verdict (dfs cs []) { st with pos := ((i + lo : Nat) : Int), accepted := b } x = verdict (dfs cs []) st x :=
      fun x b => verdict_congr hd rfl rfl x
    have hacc : (if lo = 0 then st.accepted else true) = true ∨ FlagFree (dfs cs []) := by
      rcases hf with hf | hf | hf
      · left; simp [hf]
      · left; rw [if_neg (by omega)]
      · right; exact hf
    -- every count that works is lo + d with d ≤ hi - lo
    have split : ∀ j, Works cx p lo hi (dfs cs []) st i j → ∃ d, j = lo + d ∧ d ≤ hi - lo ∧ InClass cx.query p (i + lo) d ∧
        ∃ y, verdict (dfs cs []) st (i + lo + d : Nat) = some (true, y) := by
      intro j hj
      obtain ⟨h1, h2, h3, y, h4⟩ := hj
      refine ⟨j - lo, by omega, by omega, ?_, y, ?_⟩
      · have e2 : j = lo + (j - lo) := by omega
        rw [e2] at h3
        exact (inClass_add.1 h3).2
      · have e2 : i + lo + (j - lo) = i + j := by omega
        rw [e2]; exact h4
    split at e
    · simp at e
    · rename_i st2 h2
      simp only [Option.some.injEq] at e
      subst e
      have key := (lazy_loop_char hm hne hd hcl (hi - lo) _ true st2 (i + lo) rfl hacc (inClass_len hlo hl) h2).1 rfl
      rcases key with ⟨ka, d, kd1, kd2, kd3, kd4⟩ | ⟨ka, kr⟩
      · rw [hcg] at kd3
        refine ⟨fun _ => ⟨lo + d, ⟨⟨by omega, by omega, inClass_add.2 ⟨hlo, kd2⟩, _, by rw [← Nat.add_assoc]; exact kd3⟩, ?_⟩,
          by rw [← Nat.add_assoc]; exact kd3⟩, fun h => by rw [ka] at h; simp at h⟩
        intro j hj
        obtain ⟨d', rfl, _, _, y, hy⟩ := split j hj
        by_cases hdd : d' < d
        · obtain ⟨z, hz⟩ := kd4 d' hdd
          rw [hcg, hy] at hz; simp at hz
        · omega
      · refine ⟨fun h => by rw [ka] at h; simp at h, fun _ j hj1 hj2 hj3 => ?_⟩
        obtain ⟨d', rfl⟩ : ∃ d', j = lo + d' := ⟨j - lo, by omega⟩
        obtain ⟨z, hz⟩ := kr d' (by omega) (inClass_add.1 hj3).2
        rw [hcg] at hz
        exact ⟨z, by rw [← Nat.add_assoc]; exact hz⟩
    · rename_i st2 h2
      obtain ⟨q1, q2, q3, d, q4, q5, q6, q7, q8⟩ :=
        (lazy_loop_char hm hne hd hcl (hi - lo) _ false st2 (i + lo) rfl hacc (inClass_len hlo hl) h2).2 rfl
      have hv := verdict_eq' q7 q3 e
      have hcg2 : verdict (dfs cs []) st2 ((i + lo + d : Nat) : Int) = verdict (dfs cs []) st ((i + lo + d : Nat) : Int) :=
        verdict_congr hd (by simpa using q1) (by simpa using q2) _
      rw [hcg2] at hv
      have honly : ∀ j, Works cx p lo hi (dfs cs []) st i j → j = lo + d := by
        intro j hj
        obtain ⟨d', rfl, h5, h6, y, hy⟩ := split j hj
        by_cases hdd : d' < d
        · obtain ⟨z, hz⟩ := q8 d' hdd
          rw [hcg, hy] at hz; simp at hz
        · by_cases hdd' : d' = d
          · omega
          · exact absurd (inClass_mono h6 (by omega)) (q6 (by omega))
      refine ⟨fun ha => ?_, fun ha j hj1 hj2 hj3 => ?_⟩
      · rw [ha] at hv
        exact ⟨lo + d, ⟨⟨by omega, by omega, inClass_add.2 ⟨hlo, q5⟩, _, by rw [← Nat.add_assoc]; exact hv⟩,
          fun j hj => by rw [honly j hj]; omega⟩, by rw [← Nat.add_assoc]; exact hv⟩
      · obtain ⟨d', rfl⟩ : ∃ d', j = lo + d' := ⟨j - lo, by omega⟩
        rw [Rejects, ← Nat.add_assoc]
        by_cases hdd : d' < d
        · obtain ⟨z, hz⟩ := q8 d' hdd
          rw [hcg] at hz; exact ⟨z, hz⟩
        · by_cases hdd' : d' = d
          · subst hdd'; exact ⟨_, by rw [hv, ha]⟩
          · exact absurd (inClass_mono (inClass_add.1 hj3).2 (by omega)) (q6 (by omega))
  · obtain ⟨r, e1, hr⟩ := repS_no hm lo st i hi' hlo
    rw [e1] at e
    simp only [Option.some.injEq] at e
    subst e
    exact ⟨fun h => by rw [hr] at h; simp at h, fun _ j hj1 _ hj3 => absurd (inClass_mono hj3 hj1) hlo⟩

end ERegex

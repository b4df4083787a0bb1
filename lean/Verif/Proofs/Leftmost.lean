import Verif.Proofs.Complete
import Verif.Proofs.SoundSearch
/-!
# Search: which positions a failed attempt skips, and when the leftmost match is found

`match_result::next` continues one past the position where the failed attempt stopped (src/match_result.hpp:190-193), so a
failed attempt that does not restore the position skips candidates.  `skipOk t`: the skipped candidates cannot match if the
failed one did not.
-/
set_option autoImplicit false
namespace ERegex
open Spec

/-- `st` stands `d` characters of the class after `i`. -/
def Tr (cx : Ctx) (p : Int → Bool) (i : Nat) (x : Int) : Prop := ∃ d : Nat, x = ((i + d : Nat) : Int) ∧ InClass cx.query p i d

theorem Tr.zero {cx : Ctx} {p : Int → Bool} {i : Nat} {x : Int} (h : x = i) : Tr cx p i x := ⟨0, by simpa using h, inClass_zero _ _ _⟩

theorem Tr.nonneg {cx : Ctx} {p : Int → Bool} {i : Nat} {x : Int} (h : Tr cx p i x) : 0 ≤ x := by
  obtain ⟨d, rfl, _⟩ := h; omega

theorem Tr.step {cx : Ctx} {p : Int → Bool} {i : Nat} {st st' : St} (h : Tr cx p i st.pos) (e : charStep cx p st = some st') :
    Tr cx p i st'.pos := by
  obtain ⟨d, hd, hin⟩ := h
  by_cases h1 : InClass cx.query p (i + d) 1
  · rw [step_yes hd h1] at e
    simp only [Option.some.injEq] at e
    subst e
    exact ⟨d + 1, by simp [Nat.add_assoc], inClass_add.2 ⟨hin, h1⟩⟩
  · rw [step_no hd h1] at e
    simp only [Option.some.injEq] at e
    subst e
    exact ⟨d, hd, hin⟩

theorem Tr.rep {cx : Ctx} {p : Int → Bool} {i : Nat} : ∀ (n : Nat) (st : St) (b : Bool) (st' : St), Tr cx p i st.pos →
    repLoop (charStep cx p) n st = some (b, st') → Tr cx p i st'.pos
  | 0, st, b, st', h, e => by
    simp only [repLoop, Option.some.injEq, Prod.mk.injEq] at e
    obtain ⟨_, rfl⟩ := e; exact h
  | n + 1, st, b, st', h, e => by
    simp only [repLoop] at e
    split at e
    · simp at e
    · rename_i s1 e1
      split at e
      · exact Tr.rep n s1 b st' (h.step e1) e
      · simp only [Option.some.injEq, Prod.mk.injEq] at e
        obtain ⟨_, rfl⟩ := e; exact h.step e1

/-- A failing run stops after characters of the class. -/
def Trail (cx : Ctx) (P : Par) (p : Int → Bool) (k : K) : Prop :=
  ∀ st st', Good cx P st → st.start = st.pos → k st = some st' → st'.accepted = false → Tr cx p (off st) st'.pos

theorem Trail.clean {cx : Ctx} {P : Par} {p : Int → Bool} {k : K} (h : Clean k) : Trail cx P p k := by
  intro st st' hg hs e ha
  obtain ⟨hn, _⟩ := hg.nat
  exact Tr.zero (by rw [h st st' (by omega) e ha, hn])

theorem greedy_trail {cx : Ctx} {P : Par} {p : Int → Bool} {lo hi : Nat} {cs : List M} {inj : List K}
    (hb : Rest (greedyBacktrack cs inj)) (hcl : Clean (dfs cs [])) (hd : Rest (dfs cs [])) (hlh : lo ≤ hi) :
    Trail cx P p (greedyMatch (charStep cx p) lo hi cs inj) := by
  intro st st' hg hs e ha
  obtain ⟨hn, hl⟩ := hg.nat
  by_cases hlo : InClass cx.query p (off st) lo
  · rcases greedy_char hb (backtrack_clean hcl) hd hlh hn e with ⟨h1, _⟩ | ⟨k, k1, k2, k3, k4, hk⟩
    · exact absurd hlo h1
    · rcases hk with ⟨d, d1, d2, d3, d4, d5⟩ | ⟨hv, _⟩
      · rw [d4] at ha; simp at ha
      · obtain ⟨s, s1, s2, s3⟩ := verdict_some hv
        have := hcl _ s (by simp only; omega) s1 (by rw [s2, ha])
        simp only at this
        exact ⟨lo, by rw [← s3, this], hlo⟩
  · obtain ⟨d, _, hin, e1⟩ := rep_no lo st (off st) hn hlo
    simp only [greedyMatch, e1, Option.some.injEq] at e
    subst e
    exact ⟨d, rfl, hin⟩

theorem lazyLoop_trail {cx : Ctx} {p : Int → Bool} {cs : List M} {inj : List K} {i : Nat} (hcl : Clean (dfs cs [])) :
    ∀ (n : Nat) (st : St) (b : Bool) (st' : St), Tr cx p i st.pos → lazyLoop cx (charStep cx p) cs inj i n st = some (b, st') →
    (b = false → Tr cx p i st'.pos) ∧ (b = true → st'.accepted = false → Tr cx p i st'.pos) := by
  intro n
  induction n with
  | zero =>
    intro st b st' h e
    simp only [lazyLoop, Option.some.injEq, Prod.mk.injEq] at e
    obtain ⟨rfl, rfl⟩ := e
    exact ⟨fun _ => h, by simp⟩
  | succ n ih =>
    intro st b st' h e
    simp only [lazyLoop] at e
    split at e
    · split at e
      · split at e
        · simp at e
        · rename_i s1 e1
          split at e
          · simp only [Option.some.injEq, Prod.mk.injEq] at e
            obtain ⟨rfl, rfl⟩ := e
            exact ⟨fun _ => h, by simp⟩
          · split at e
            · simp at e
            · rename_i s2 e2
              have h2 : Tr cx p i s2.pos := Tr.step (st := { s1 with pos := st.pos }) h e2
              split at e
              · exact ih s2 b st' h2 e
              · simp only [Option.some.injEq, Prod.mk.injEq] at e
                obtain ⟨rfl, rfl⟩ := e
                exact ⟨by simp, fun _ _ => Tr.zero rfl⟩
      · split at e
        · simp at e
        · rename_i s1 e1
          split at e
          · rename_i ha
            simp only [Option.some.injEq, Prod.mk.injEq] at e
            obtain ⟨rfl, rfl⟩ := e
            exact ⟨by simp, fun _ hf => by rw [ha] at hf; simp at hf⟩
          · rename_i ha
            have h1 : Tr cx p i s1.pos := by rw [hcl st s1 h.nonneg e1 (by simpa using ha)]; exact h
            split at e
            · simp at e
            · rename_i s2 e2
              split at e
              · exact ih s2 b st' (h1.step e2) e
              · simp only [Option.some.injEq, Prod.mk.injEq] at e
                obtain ⟨rfl, rfl⟩ := e
                exact ⟨by simp, fun _ _ => Tr.zero rfl⟩
    · simp only [Option.some.injEq, Prod.mk.injEq] at e
      obtain ⟨rfl, rfl⟩ := e
      exact ⟨fun _ => h, by simp⟩

theorem lazy_trail {cx : Ctx} {P : Par} {p : Int → Bool} {lo hi : Nat} {cs : List M} {inj : List K} (hcl : Clean (dfs cs [])) :
    Trail cx P p (lazyMatch cx (charStep cx p) lo hi cs inj) := by
  intro st st' hg hs e ha
  obtain ⟨hn, hl⟩ := hg.nat
  simp only [lazyMatch] at e
  split at e
  · simp at e
  · rename_i s1 e1
    simp only [Option.some.injEq] at e
    subst e
    exact Tr.rep lo st _ _ (Tr.zero hn) e1
  · rename_i s1 e1
    have h1 := Tr.rep lo st _ _ (Tr.zero hn) e1
    rw [hn] at e
    split at e
    · simp at e
    · rename_i s2 e2
      simp only [Option.some.injEq] at e
      subst e
      exact (lazyLoop_trail hcl _ _ _ _ h1 e2).2 rfl ha
    · rename_i s2 e2
      have h2 := (lazyLoop_trail hcl _ _ _ _ h1 e2).1 rfl
      rw [hcl s2 st' h2.nonneg e ha]
      exact h2

theorem possLoop_trail {cx : Ctx} {p : Int → Bool} {lo i : Nat} : ∀ (n c : Nat) (last : Int) (st : St) (b : Bool) (st' : St),
    Tr cx p i st.pos → Tr cx p i last → possLoop (charStep cx p) lo n c last st = some (b, st') → Tr cx p i st'.pos := by
  intro n
  induction n with
  | zero =>
    intro c last st b st' h _ e
    simp only [possLoop, Option.some.injEq, Prod.mk.injEq] at e
    obtain ⟨_, rfl⟩ := e; exact h
  | succ n ih =>
    intro c last st b st' h hl e
    simp only [possLoop] at e
    split at e
    · simp at e
    · rename_i s1 e1
      have h1 := h.step e1
      split at e
      · exact ih _ _ _ _ _ h1 h1 e
      · split at e
        · simp only [Option.some.injEq, Prod.mk.injEq] at e
          obtain ⟨_, rfl⟩ := e; exact h1
        · simp only [Option.some.injEq, Prod.mk.injEq] at e
          obtain ⟨_, rfl⟩ := e; exact hl

theorem poss_trail {cx : Ctx} {P : Par} {p : Int → Bool} {lo hi : Nat} {m : M} {cs : List M} {inj : List K}
    (hm : m inj = charStep cx p) (hcl : Clean (dfs cs [])) : Trail cx P p (possessiveMatch m lo hi cs inj) := by
  intro st st' hg hs e ha
  obtain ⟨hn, hl⟩ := hg.nat
  simp only [possessiveMatch, hm] at e
  split at e
  · simp at e
  · rename_i s1 e1
    simp only [Option.some.injEq] at e
    subst e
    exact possLoop_trail _ _ _ _ _ _ (Tr.zero hn) (Tr.zero hn) e1
  · rename_i s1 e1
    have h1 := possLoop_trail _ _ _ _ _ _ (Tr.zero hn) (Tr.zero hn) e1
    rw [hcl s1 st' h1.nonneg e ha]
    exact h1

theorem repeated_trail {cx : Ctx} {P : Par} {p : Int → Bool} {n : Nat} {cs : List M} {inj : List K} (hcl : Clean (dfs cs [])) :
    Trail cx P p (repeatedMatch (charStep cx p) n cs inj) := by
  intro st st' hg hs e ha
  obtain ⟨hn, hl⟩ := hg.nat
  simp only [repeatedMatch] at e
  split at e
  · simp at e
  · rename_i s1 e1
    simp only [Option.some.injEq] at e
    subst e
    exact Tr.rep n st _ _ (Tr.zero hn) e1
  · rename_i s1 e1
    have h1 := Tr.rep n st _ _ (Tr.zero hn) e1
    rw [hcl s1 st' h1.nonneg e ha]
    exact h1

theorem simple_trail {cx : Ctx} {P : Par} {p : Int → Bool} {m : K} {cs : List M} {inj : List K} (hm : Trail cx P p m) :
    Trail cx P p (simpleMatch m cs inj) := by
  intro st st' hg hs e ha
  obtain ⟨hn, hl⟩ := hg.nat
  simp only [simpleMatch] at e
  split at e
  · simp at e
  · rename_i s1 e1
    split at e
    · split at e
      · simp at e
      · split at e
        · rename_i ha2
          simp only [Option.some.injEq] at e
          subst e; rw [ha2] at ha; simp at ha
        · simp only [Option.some.injEq] at e
          subst e
          exact Tr.zero hn
    · simp only [Option.some.injEq] at e
      subst e
      exact hm st _ hg hs e1 ha

/-- An optional class at the start of an attempt restores the position. -/
theorem optional_trail {cx : Ctx} {P : Par} {p p' : Int → Bool} {cs : List M} {inj : List K} (hb : Rest (greedyBacktrack cs inj))
    (hcl : Clean (greedyBacktrack cs inj)) : Trail cx P p' (optionalMatch (charStep cx p) 1 cs inj) := by
  intro st st' hg hs e ha
  obtain ⟨hn, hl⟩ := hg.nat
  refine Tr.zero ?_
  simp only [optionalMatch] at e
  by_cases h1 : InClass cx.query p (off st) 1
  · rw [step_yes hn h1] at e
    simp only at e
    split at e
    · simp at e
    · rename_i s2 e2
      have hs2 := (hb.start _ _ e2).1
      simp only at hs2
      cases ha2 : s2.accepted with
      | true => simp [ha2] at e; subst e; rw [ha2] at ha; simp at ha
      | false =>
        have hp := hcl _ s2 (by simp only; omega) e2 ha2
        simp only at hp
        rw [if_pos (by simp [ha2]; omega)] at e
        have := hcl _ st' (by simp only; omega) e ha
        simp only at this
        omega
  · rw [step_no hn h1] at e
    simp only at e
    split at e
    · simp at e
    · rename_i s2 e2
      have hs2 := (hb.start _ _ e2).1
      simp only at hs2
      cases ha2 : s2.accepted with
      | true => simp [ha2] at e; subst e; rw [ha2] at ha; simp at ha
      | false =>
        have hp := hcl _ s2 (by simp only; omega) e2 ha2
        simp only at hp
        rw [if_neg (by simp [ha2]; omega)] at e
        simp only [Option.some.injEq] at e
        subst e; omega

/-! ## loops with nothing after them: every result stands after characters of the class -/

/-- Every run stops after characters of the class. -/
def Trail' (cx : Ctx) (P : Par) (p : Int → Bool) (k : K) : Prop := ∀ st st', Good cx P st → k st = some st' → Tr cx p (off st) st'.pos

theorem greedy_all {cx : Ctx} {P : Par} {p : Int → Bool} {lo hi : Nat} {inj : List K} (hb : Rest (greedyBacktrack [] inj)) (hlh : lo ≤ hi) :
    Trail' cx P p (greedyMatch (charStep cx p) lo hi [] inj) := by
  intro st st' hg e
  obtain ⟨hn, hl⟩ := hg.nat
  have hcl : Clean (dfs [] []) := by intro a b _ e _; simp only [dfs, Option.some.injEq] at e; rw [e]
  have hd : Rest (dfs [] []) := rest_dfs cx [] [] (by simp)
  by_cases hlo : InClass cx.query p (off st) lo
  · rcases greedy_char hb (backtrack_clean hcl) hd hlh hn e with ⟨h1, _⟩ | ⟨k, k1, k2, k3, k4, hk⟩
    · exact absurd hlo h1
    · rcases hk with ⟨d, d1, d2, d3, d4, d5⟩ | ⟨hv, _⟩
      · obtain ⟨s, s1, s2, s3⟩ := verdict_some d3
        simp only [greedyBacktrack, List.isEmpty_nil, if_true] at s1
        split at s1
        · simp at s1
        · simp only [Option.some.injEq] at s1
          exact ⟨d, by rw [← s3, ← s1], inClass_mono k3 d2⟩
      · obtain ⟨s, s1, s2, s3⟩ := verdict_some hv
        simp only [dfs, Option.some.injEq] at s1
        exact ⟨lo, by rw [← s3, ← s1], hlo⟩
  · obtain ⟨d, _, hin, e1⟩ := rep_no lo st (off st) hn hlo
    simp only [greedyMatch, e1, Option.some.injEq] at e
    subst e
    exact ⟨d, rfl, hin⟩

theorem lazyLoop_all {cx : Ctx} {p : Int → Bool} {inj : List K} {i : Nat} :
    ∀ (n : Nat) (st : St) (b : Bool) (st' : St), Tr cx p i st.pos → lazyLoop cx (charStep cx p) [] inj i n st = some (b, st') →
    Tr cx p i st'.pos := by
  intro n
  induction n with
  | zero =>
    intro st b st' h e
    simp only [lazyLoop, Option.some.injEq, Prod.mk.injEq] at e
    obtain ⟨rfl, rfl⟩ := e
    exact h
  | succ n ih =>
    intro st b st' h e
    simp only [lazyLoop, List.isEmpty_nil, if_true] at e
    split at e
    · split at e
      · simp at e
      · rename_i s1 e1
        split at e
        · simp only [Option.some.injEq, Prod.mk.injEq] at e
          obtain ⟨rfl, rfl⟩ := e
          exact h
        · split at e
          · simp at e
          · rename_i s2 e2
            have h2 : Tr cx p i s2.pos := Tr.step (st := { s1 with pos := st.pos }) h e2
            split at e
            · exact ih s2 b st' h2 e
            · simp only [Option.some.injEq, Prod.mk.injEq] at e
              obtain ⟨rfl, rfl⟩ := e
              exact Tr.zero rfl
    · simp only [Option.some.injEq, Prod.mk.injEq] at e
      obtain ⟨rfl, rfl⟩ := e
      exact h

theorem lazy_all {cx : Ctx} {P : Par} {p : Int → Bool} {lo hi : Nat} {inj : List K} :
    Trail' cx P p (lazyMatch cx (charStep cx p) lo hi [] inj) := by
  intro st st' hg e
  obtain ⟨hn, hl⟩ := hg.nat
  simp only [lazyMatch] at e
  split at e
  · simp at e
  · rename_i s1 e1
    simp only [Option.some.injEq] at e
    subst e
    exact Tr.rep lo st _ _ (Tr.zero hn) e1
  · rename_i s1 e1
    have h1 := Tr.rep lo st _ _ (Tr.zero hn) e1
    rw [hn] at e
    split at e
    · simp at e
    · rename_i s2 e2
      simp only [Option.some.injEq] at e
      subst e
      exact lazyLoop_all _ _ _ _ h1 e2
    · rename_i s2 e2
      simp only [dfs, Option.some.injEq] at e
      subst e
      exact lazyLoop_all _ _ _ _ h1 e2

theorem poss_all {cx : Ctx} {P : Par} {p : Int → Bool} {lo hi : Nat} {m : M} {inj : List K} (hm : m inj = charStep cx p) :
    Trail' cx P p (possessiveMatch m lo hi [] inj) := by
  intro st st' hg e
  obtain ⟨hn, hl⟩ := hg.nat
  simp only [possessiveMatch, hm] at e
  split at e
  · simp at e
  · rename_i s1 e1
    simp only [Option.some.injEq] at e
    subst e
    exact possLoop_trail _ _ _ _ _ _ (Tr.zero hn) (Tr.zero hn) e1
  · rename_i s1 e1
    simp only [dfs, Option.some.injEq] at e
    subst e
    exact possLoop_trail _ _ _ _ _ _ (Tr.zero hn) (Tr.zero hn) e1

theorem repeated_all {cx : Ctx} {P : Par} {p : Int → Bool} {n : Nat} {inj : List K} :
    Trail' cx P p (repeatedMatch (charStep cx p) n [] inj) := by
  intro st st' hg e
  obtain ⟨hn, hl⟩ := hg.nat
  simp only [repeatedMatch] at e
  split at e
  · simp at e
  · rename_i s1 e1
    simp only [Option.some.injEq] at e
    subst e
    exact Tr.rep n st _ _ (Tr.zero hn) e1
  · rename_i s1 e1
    simp only [dfs, Option.some.injEq] at e
    subst e
    exact Tr.rep n st _ _ (Tr.zero hn) e1

/-! ## the conditions on trees -/

/-- Loops over one class with nothing after them, possibly inside groups. -/
def pureLoop : Node → Bool
  | .greedy m lo hi cs => single m && !optPath m lo hi && decide (lo ≤ hi) && cs.isEmpty
  | .lazy m lo hi cs => single m && decide (lo ≤ hi) && cs.isEmpty
  | .possessive m lo hi cs => single m && decide (lo ≤ hi) && cs.isEmpty
  | .repeated m _ cs => single m && cs.isEmpty
  | .group m _ cs => pureLoop m && cs.isEmpty
  | .simple m cs => pureLoop m && cs.isEmpty
  | .alt [c] => pureLoop c
  | _ => false

/-- The class of the loop at the head of the tree.  `w`: nothing follows, so that only the existence of a match matters. -/
def loopHead (w : Bool) : Node → Option Node
  | .greedy m lo hi cs =>
    if single m && !optPath m lo hi && decide (lo ≤ hi) && cleans cs && (decide (hi = umax) || (w && nullables cs)) then some m else none
  | .lazy m lo hi cs =>
    if single m && decide (lo ≤ hi) && cleans cs && (decide (hi = umax) || (w && nullables cs)) then some m else none
  | .possessive m lo hi cs =>
    if single m && decide (lo ≤ hi) && cleans cs && (decide (hi = umax) || (w && nullables cs)) then some m else none
  | .repeated m _ cs => if single m && w && nullables cs && cleans cs then some m else none
  | .group m _ cs => if totals true cs || (cleans cs && pureLoop m) then loopHead (w && nullables cs) m else none
  | .simple m cs => loopHead (w && nullables cs) m
  | .alt [c] => loopHead w c
  | _ => none

/-- Trees whose failed attempts restore the position when they began at the start of the match. -/
def startClean : Node → Bool
  | .greedy m lo hi cs => clean (.greedy m lo hi cs) || (optPath m lo hi && single m && cleans cs)
  | .group m i cs => clean (.group m i cs) || (totals true cs && startClean m)
  | .simple m _ => startClean m
  | .alt [c] => startClean c
  | t => clean t

/-- Trees whose failed attempts skip no match. -/
def skipOk (t : Node) : Bool := startClean t || (loopHead true t).isSome

theorem own_rest (cx : Ctx) (cs : List Node) : ∀ k ∈ (runs cx cs).map (fun c => c []), Rest k := by
  intro k hk
  rw [runs_eq_map] at hk
  simp only [List.map_map, List.mem_map, Function.comp] at hk
  obtain ⟨c, _, rfl⟩ := hk
  exact rest_run cx c [] (by simp)

theorem charStep_of {cx : Ctx} {m : Node} (hm : single m = true) (inj : List K) : run cx m inj = charStep cx (testOf m) :=
  funext (run_single cx m hm inj)

theorem run_alt_one (cx : Ctx) (c : Node) (inj : List K) : run cx (.alt [c]) inj = run cx c inj := by
  simp only [run, runs, dfs]

/-- The group's part: what the matcher returns, or the end of what follows. -/
theorem group_trail {cx : Ctx} {P : Par} {p : Int → Bool} {m : M} {idx : Nat} {cs : List M} {inj : List K}
    (hm : Trail cx P p (m (cs.map (fun c => c [])))) (h : Total (dfs cs (cs.map (fun c => c []) ++ inj)) ∨ (Trail' cx P p (m (cs.map (fun c => c []))) ∧
      Clean (dfs cs (cs.map (fun c => c []) ++ inj)))) : Trail cx P p (groupMatch m idx cs inj) := by
  intro st st' hg hs e ha
  simp only [groupMatch] at e
  split at e
  · simp at e
  · rename_i s1 e1
    split at e
    · rename_i ha1
      split at e
      · rcases h with ht | ⟨h1, h2⟩
        · rw [ht _ _ e ha1] at ha; simp at ha
        · have t1 := h1 st s1 hg e1
          rw [h2 _ st' (by exact t1.nonneg) e ha]
          exact t1
      · simp at e
    · simp only [Option.some.injEq] at e
      subst e
      exact hm st _ hg hs e1 ha

theorem run_pure {cx : Ctx} {P : Par} : ∀ (t : Node) (w : Bool) (m : Node), pureLoop t = true → loopHead w t = some m → ∀ inj,
    (∀ k ∈ inj, Rest k) → Trail' cx P (testOf m) (run cx t inj)
  | .exact .., _, _, h, _, _, _ => by simp [pureLoop] at h
  | .range .., _, _, h, _, _, _ => by simp [pureLoop] at h
  | .space, _, _, h, _, _, _ => by simp [pureLoop] at h
  | .word, _, _, h, _, _, _ => by simp [pureLoop] at h
  | .any, _, _, h, _, _, _ => by simp [pureLoop] at h
  | .bos, _, _, h, _, _, _ => by simp [pureLoop] at h
  | .eol, _, _, h, _, _, _ => by simp [pureLoop] at h
  | .negated _, _, _, h, _, _, _ => by simp [pureLoop] at h
  | .alt [], _, _, h, _, _, _ => by simp [pureLoop] at h
  | .alt (_ :: _ :: _), _, _, h, _, _, _ => by simp [pureLoop] at h
  | .alt [c], w, m', h, hh, inj, hinj => by
    simp only [pureLoop] at h
    simp only [loopHead] at hh
    rw [run_alt_one]
    exact run_pure c w m' h hh inj hinj
  | .greedy m lo hi cs, w, m', h, hh, inj, hinj => by
    simp only [pureLoop, Bool.and_eq_true, Bool.not_eq_true', decide_eq_true_eq, List.isEmpty_iff] at h
    obtain ⟨⟨⟨h1, h2⟩, h3⟩, rfl⟩ := h
    simp only [loopHead] at hh
    split at hh
    · simp only [Option.some.injEq] at hh
      subst hh
      rw [run_greedy_loop cx [] h2, charStep_of h1]
      exact greedy_all (rest_backtrack cx [] inj hinj) h3
    · simp at hh
  | .lazy m lo hi cs, w, m', h, hh, inj, hinj => by
    simp only [pureLoop, Bool.and_eq_true, decide_eq_true_eq, List.isEmpty_iff] at h
    obtain ⟨⟨h1, h3⟩, rfl⟩ := h
    simp only [loopHead] at hh
    split at hh
    · simp only [Option.some.injEq] at hh
      subst hh
      simp only [run, charStep_of h1]
      exact lazy_all
    · simp at hh
  | .possessive m lo hi cs, w, m', h, hh, inj, hinj => by
    simp only [pureLoop, Bool.and_eq_true, decide_eq_true_eq, List.isEmpty_iff] at h
    obtain ⟨⟨h1, h3⟩, rfl⟩ := h
    simp only [loopHead] at hh
    split at hh
    · simp only [Option.some.injEq] at hh
      subst hh
      simp only [run]
      exact poss_all (charStep_of h1 inj)
    · simp at hh
  | .repeated m n cs, w, m', h, hh, inj, hinj => by
    simp only [pureLoop, Bool.and_eq_true, List.isEmpty_iff] at h
    obtain ⟨h1, rfl⟩ := h
    simp only [loopHead] at hh
    split at hh
    · simp only [Option.some.injEq] at hh
      subst hh
      simp only [run, charStep_of h1]
      exact repeated_all
    · simp at hh
  | .simple m cs, w, m', h, hh, inj, hinj => by
    simp only [pureLoop, Bool.and_eq_true, List.isEmpty_iff] at h
    obtain ⟨h1, rfl⟩ := h
    simp only [loopHead, nullables, Bool.and_true] at hh
    have ih := run_pure (cx := cx) (P := P) m w m' h1 hh [] (by simp)
    intro st st' hg e
    simp only [run, simpleMatch] at e
    split at e
    · simp at e
    · rename_i s1 e1
      split at e
      · simp only [runs, dfs] at e
        split at e
        · simp only [Option.some.injEq] at e; subst e; exact ih st _ hg e1
        · simp only [Option.some.injEq] at e; subst e; exact ih st _ hg e1
      · simp only [Option.some.injEq] at e; subst e; exact ih st _ hg e1
  | .group m idx cs, w, m', h, hh, inj, hinj => by
    simp only [pureLoop, Bool.and_eq_true, List.isEmpty_iff] at h
    obtain ⟨h1, rfl⟩ := h
    simp only [loopHead, nullables, totals, Bool.true_or, Bool.and_true, if_true] at hh
    have ih := run_pure (cx := cx) (P := P) m w m' h1 hh [] (by simp)
    intro st st' hg e
    simp only [run, groupMatch, runs, List.map_nil] at e
    split at e
    · simp at e
    · rename_i s1 e1
      have t1 := ih st _ hg e1
      split at e
      · split at e
        · simp only [dfs, Option.some.injEq] at e; subst e; exact t1
        · simp at e
      · simp only [Option.some.injEq] at e; subst e; exact t1

theorem run_head {cx : Ctx} {P : Par} : ∀ (t : Node) (w : Bool) (m : Node), loopHead w t = some m → ∀ inj,
    (∀ k ∈ inj, Rest k) → Trail cx P (testOf m) (run cx t inj)
  | .exact .., _, _, h, _, _ => by simp [loopHead] at h
  | .range .., _, _, h, _, _ => by simp [loopHead] at h
  | .space, _, _, h, _, _ => by simp [loopHead] at h
  | .word, _, _, h, _, _ => by simp [loopHead] at h
  | .any, _, _, h, _, _ => by simp [loopHead] at h
  | .bos, _, _, h, _, _ => by simp [loopHead] at h
  | .eol, _, _, h, _, _ => by simp [loopHead] at h
  | .negated _, _, _, h, _, _ => by simp [loopHead] at h
  | .alt [], _, _, h, _, _ => by simp [loopHead] at h
  | .alt (_ :: _ :: _), _, _, h, _, _ => by simp [loopHead] at h
  | .alt [c], w, m', hh, inj, hinj => by
    simp only [loopHead] at hh
    rw [run_alt_one]
    exact run_head c w m' hh inj hinj
  | .greedy m lo hi cs, w, m', hh, inj, hinj => by
    simp only [loopHead] at hh
    split at hh
    · rename_i h
      simp only [Bool.and_eq_true, Bool.not_eq_true', decide_eq_true_eq] at h
      obtain ⟨⟨⟨⟨h1, h2⟩, h3⟩, h4⟩, _⟩ := h
      simp only [Option.some.injEq] at hh
      subst hh
      rw [run_greedy_loop cx cs h2, charStep_of h1]
      exact greedy_trail (rest_backtrack cx cs inj hinj) (clean_dfs _ _ (runs_clean cx cs h4)) (rest_dfs cx cs [] (by simp)) h3
    · simp at hh
  | .lazy m lo hi cs, w, m', hh, inj, hinj => by
    simp only [loopHead] at hh
    split at hh
    · rename_i h
      simp only [Bool.and_eq_true, decide_eq_true_eq] at h
      obtain ⟨⟨⟨h1, h3⟩, h4⟩, _⟩ := h
      simp only [Option.some.injEq] at hh
      subst hh
      simp only [run, charStep_of h1]
      exact lazy_trail (clean_dfs _ _ (runs_clean cx cs h4))
    · simp at hh
  | .possessive m lo hi cs, w, m', hh, inj, hinj => by
    simp only [loopHead] at hh
    split at hh
    · rename_i h
      simp only [Bool.and_eq_true, decide_eq_true_eq] at h
      obtain ⟨⟨⟨h1, h3⟩, h4⟩, _⟩ := h
      simp only [Option.some.injEq] at hh
      subst hh
      simp only [run]
      exact poss_trail (charStep_of h1 inj) (clean_dfs _ _ (runs_clean cx cs h4))
    · simp at hh
  | .repeated m n cs, w, m', hh, inj, hinj => by
    simp only [loopHead] at hh
    split at hh
    · rename_i h
      simp only [Bool.and_eq_true] at h
      obtain ⟨⟨⟨h1, _⟩, _⟩, h4⟩ := h
      simp only [Option.some.injEq] at hh
      subst hh
      simp only [run, charStep_of h1]
      exact repeated_trail (clean_dfs _ _ (runs_clean cx cs h4))
    · simp at hh
  | .simple m cs, w, m', hh, inj, hinj => by
    simp only [loopHead] at hh
    simp only [run]
    exact simple_trail (run_head m _ m' hh [] (by simp))
  | .group m idx cs, w, m', hh, inj, hinj => by
    simp only [loopHead] at hh
    simp only [run]
    split at hh
    · rename_i h
      simp only [Bool.or_eq_true, Bool.and_eq_true] at h
      refine group_trail (run_head m _ m' hh _ (own_rest cx cs)) ?_
      rcases h with h | h
      · exact Or.inl (runs_total cx cs true h _ (by simp))
      · exact Or.inr ⟨run_pure m _ m' h.2 hh _ (own_rest cx cs), clean_dfs _ _ (runs_clean cx cs h.1)⟩
    · simp at hh

theorem run_startClean {cx : Ctx} {P : Par} {p : Int → Bool} : ∀ (t : Node), startClean t = true → ∀ inj, (∀ k ∈ inj, Rest k) →
    Trail cx P p (run cx t inj)
  | .exact .., h, inj, _ => Trail.clean (run_clean cx _ (by simpa only [startClean] using h) inj)
  | .range .., h, inj, _ => Trail.clean (run_clean cx _ (by simpa only [startClean] using h) inj)
  | .space, h, inj, _ => Trail.clean (run_clean cx _ (by simpa only [startClean] using h) inj)
  | .word, h, inj, _ => Trail.clean (run_clean cx _ (by simpa only [startClean] using h) inj)
  | .any, h, inj, _ => Trail.clean (run_clean cx _ (by simpa only [startClean] using h) inj)
  | .bos, h, inj, _ => Trail.clean (run_clean cx _ (by simpa only [startClean] using h) inj)
  | .eol, h, inj, _ => Trail.clean (run_clean cx _ (by simpa only [startClean] using h) inj)
  | .negated _, h, inj, _ => Trail.clean (run_clean cx _ (by simpa only [startClean] using h) inj)
  | .alt [], h, inj, _ => Trail.clean (run_clean cx _ (by simpa only [startClean] using h) inj)
  | .alt (_ :: _ :: _), h, inj, _ => Trail.clean (run_clean cx _ (by simpa only [startClean] using h) inj)
  | .alt [c], h, inj, hinj => by
    simp only [startClean] at h
    rw [run_alt_one]
    exact run_startClean c h inj hinj
  | .lazy .., h, inj, _ => Trail.clean (run_clean cx _ (by simpa only [startClean] using h) inj)
  | .possessive .., h, inj, _ => Trail.clean (run_clean cx _ (by simpa only [startClean] using h) inj)
  | .repeated .., h, inj, _ => Trail.clean (run_clean cx _ (by simpa only [startClean] using h) inj)
  | .simple m cs, h, inj, _ => by
    simp only [startClean] at h
    simp only [run]
    exact simple_trail (run_startClean m h [] (by simp))
  | .group m idx cs, h, inj, hinj => by
    simp only [startClean, Bool.or_eq_true, Bool.and_eq_true] at h
    rcases h with h | ⟨h', h⟩
    · exact Trail.clean (run_clean cx _ h inj)
    · simp only [run]
      exact group_trail (run_startClean m h _ (own_rest cx cs)) (Or.inl (runs_total cx cs true h' _ (by simp)))
  | .greedy m lo hi cs, h, inj, hinj => by
    simp only [startClean, Bool.or_eq_true, Bool.and_eq_true] at h
    rcases h with h | ⟨⟨h1, h2⟩, h3⟩
    · exact Trail.clean (run_clean cx _ h inj)
    · rw [run_greedy_opt cx cs h1, charStep_of h2, single_sizes.1 m h2]
      exact optional_trail (rest_backtrack cx cs inj hinj) (backtrack_clean (clean_dfs _ _ (runs_clean cx cs h3)))

/-! ## what the class at the head means for the language -/

theorem rep_shift {q : List Int} {m : Node} (hm : single m = true) {lo hi : Nat} {cs : List Node} {w : Bool}
    (h : hi = umax ∨ (w = true ∧ nullables cs = true)) (hlh : lo ≤ hi) {i e j : Nat} (hin : InClass q (testOf m) i e)
    (hd : Den q (.seq (.rep (toRx m) lo (boundOf hi)) (contOf (toRxs cs))) (i + e) j) :
    ∃ j', Den q (.seq (.rep (toRx m) lo (boundOf hi)) (contOf (toRxs cs))) i j' ∧ (w = false → j' = j) := by
  simp only [Den] at hd ⊢
  obtain ⟨k, ⟨n, h1, h2, h3⟩, h4⟩ := hd
  obtain ⟨rfl, h5⟩ := (single_iter hm _ _ _ _).1 h3
  by_cases hu : hi = umax
  · refine ⟨j, ⟨i + e + n, ⟨e + n, by omega, ?_, (single_iter hm _ _ _ _).2 ⟨by omega, inClass_add.2 ⟨hin, h5⟩⟩⟩, h4⟩, fun _ => rfl⟩
    intro b hb; simp [boundOf, hu] at hb
  · rcases h with h | ⟨hw, hnl⟩
    · exact absurd h hu
    · refine ⟨i + lo, ⟨i + lo, ⟨lo, by omega, ?_, (single_iter hm _ _ _ _).2 ⟨rfl, ?_⟩⟩, ?_⟩, by simp [hw]⟩
      · intro b hb; simp [boundOf, hu] at hb; omega
      · exact inClass_mono (inClass_add.2 ⟨hin, h5⟩) (by omega)
      · exact nullables_den q cs hnl _

theorem shift_tail {q : List Int} {r : Rx} {cs : List Node} {w : Bool} {i k k' j : Nat} (h2 : Den q (contOf (toRxs cs)) k j) (h3 : Den q r i k')
    (h4 : (w && nullables cs) = false → k' = k) : ∃ j', (∃ x, Den q r i x ∧ Den q (contOf (toRxs cs)) x j') ∧ (w = false → j' = j) := by
  cases hn : (w && nullables cs) with
  | true =>
    simp only [Bool.and_eq_true] at hn
    exact ⟨k', ⟨k', h3, nullables_den q cs hn.2 _⟩, by simp [hn.1]⟩
  | false =>
    have := h4 hn
    subst this
    exact ⟨j, ⟨k', h3, h2⟩, fun _ => rfl⟩

theorem head_shift {q : List Int} : ∀ (t : Node) (w : Bool) (m : Node), loopHead w t = some m → ∀ i e j, InClass q (testOf m) i e →
    Den q (toRx t) (i + e) j → ∃ j', Den q (toRx t) i j' ∧ (w = false → j' = j)
  | .exact .., _, _, h, _, _, _, _, _ => by simp [loopHead] at h
  | .range .., _, _, h, _, _, _, _, _ => by simp [loopHead] at h
  | .space, _, _, h, _, _, _, _, _ => by simp [loopHead] at h
  | .word, _, _, h, _, _, _, _, _ => by simp [loopHead] at h
  | .any, _, _, h, _, _, _, _, _ => by simp [loopHead] at h
  | .bos, _, _, h, _, _, _, _, _ => by simp [loopHead] at h
  | .eol, _, _, h, _, _, _, _, _ => by simp [loopHead] at h
  | .negated _, _, _, h, _, _, _, _, _ => by simp [loopHead] at h
  | .alt [], _, _, h, _, _, _, _, _ => by simp [loopHead] at h
  | .alt (_ :: _ :: _), _, _, h, _, _, _, _, _ => by simp [loopHead] at h
  | .alt [c], w, m', hh, i, e, j, hin, hd => by
    simp only [loopHead] at hh
    simp only [toRx, toRxs, altOf] at hd ⊢
    exact head_shift c w m' hh i e j hin hd
  | .greedy m lo hi cs, w, m', hh, i, e, j, hin, hd => by
    simp only [loopHead] at hh
    split at hh
    · rename_i h
      simp only [Bool.and_eq_true, Bool.not_eq_true', decide_eq_true_eq, Bool.or_eq_true] at h
      simp only [Option.some.injEq] at hh
      subst hh
      simp only [toRx] at hd ⊢
      exact rep_shift h.1.1.1.1 h.2 h.1.1.2 hin hd
    · simp at hh
  | .lazy m lo hi cs, w, m', hh, i, e, j, hin, hd => by
    simp only [loopHead] at hh
    split at hh
    · rename_i h
      simp only [Bool.and_eq_true, decide_eq_true_eq, Bool.or_eq_true] at h
      simp only [Option.some.injEq] at hh
      subst hh
      simp only [toRx] at hd ⊢
      exact rep_shift h.1.1.1 h.2 h.1.1.2 hin hd
    · simp at hh
  | .possessive m lo hi cs, w, m', hh, i, e, j, hin, hd => by
    simp only [loopHead] at hh
    split at hh
    · rename_i h
      simp only [Bool.and_eq_true, decide_eq_true_eq, Bool.or_eq_true] at h
      simp only [Option.some.injEq] at hh
      subst hh
      simp only [toRx] at hd ⊢
      exact rep_shift h.1.1.1 h.2 h.1.1.2 hin hd
    · simp at hh
  | .repeated m n cs, w, m', hh, i, e, j, hin, hd => by
    simp only [loopHead] at hh
    split at hh
    · rename_i h
      simp only [Bool.and_eq_true] at h
      obtain ⟨⟨⟨h1, hw⟩, hnl⟩, _⟩ := h
      simp only [Option.some.injEq] at hh
      subst hh
      simp only [toRx, Den] at hd ⊢
      obtain ⟨k, ⟨n', h2, h3, h4⟩, h5⟩ := hd
      obtain ⟨rfl, h6⟩ := (single_iter h1 _ _ _ _).1 h4
      refine ⟨i + n, ⟨i + n, ⟨n, by omega, by simp, (single_iter h1 _ _ _ _).2 ⟨rfl, inClass_mono (inClass_add.2 ⟨hin, h6⟩) (by omega)⟩⟩, ?_⟩, by simp [hw]⟩
      exact nullables_den q cs hnl _
    · simp at hh
  | .simple m cs, w, m', hh, i, e, j, hin, hd => by
    simp only [loopHead] at hh
    simp only [toRx, Den] at hd ⊢
    obtain ⟨k, h1, h2⟩ := hd
    obtain ⟨k', h3, h4⟩ := head_shift m _ m' hh i e k hin h1
    exact shift_tail h2 h3 h4
  | .group m idx cs, w, m', hh, i, e, j, hin, hd => by
    simp only [loopHead] at hh
    simp only [toRx, Den] at hd ⊢
    obtain ⟨k, h1, h2⟩ := hd
    split at hh
    · obtain ⟨k', h3, h4⟩ := head_shift m _ m' hh i e k hin h1
      exact shift_tail h2 h3 h4
    · simp at hh

/-! ## the search -/

/-- Some match begins at `s`, for a relation `R` between starts and ends. -/
def Some2 (R : Nat → Nat → Prop) (s : Nat) : Prop := ∃ j, R s j

/-- Some match of `r` begins at `s`. -/
abbrev BeginsAt (q : List Int) (r : Rx) (s : Nat) : Prop := Some2 (Den q r) s

/-- What an attempt of a good tree decides: `B s` is "some match begins at `s`", `R s st` is "the state `st` is right for the match
that begins at `s`".  Attempts are made with the flag set, or before the end of the query. -/
structure AttemptsG (cx : Ctx) (t : Node) (B : Nat → Prop) (R : Nat → St → Prop) : Prop where
  good : SafeTree cx t
  yes : ∀ L s st st', 0 ≤ L → L ≤ s → Good cx ⟨L, s, groupsOf t, fun _ _ _ => True⟩ st → st.start = st.pos →
    (st.accepted = true ∨ st.pos < cx.qend) → run cx t [] st = some st' →
    (st'.accepted = true ↔ B (off st)) ∧ (st'.accepted = true → R (off st) st') ∧
    (st'.accepted = false → ∀ x, off st ≤ x → x ≤ off st' → ¬ B x)

/-- `R s j` is the relation "the match that begins at `s` ends at `j`". -/
abbrev AttemptsR (cx : Ctx) (t : Node) (R : Nat → Nat → Prop) : Prop := AttemptsG cx t (Some2 R) (fun s st => R s (off st))

/-- What an attempt of a good tree decides. -/
abbrev Attempts (cx : Ctx) (t : Node) : Prop := AttemptsR cx t (Den cx.query (toRx t))

theorem attempts {cx : Ctx} {nul e : Bool} (hnul : nul = true → cx.post.head? = some 0) (he : e = false → 0 < cx.query.length)
    (hlen : cx.query.length < umax) {t : Node} (hsafe : safe nul t = true) (hsnd : snd false true t = true)
    (hcm : cm e t true true .univ false false = true) (hsk : skipOk t = true) (hsl : ∀ i ∈ slots t, i < groupsOf t) :
    Attempts cx t := by
  refine ⟨safeTree hnul hsafe hsl, ?_⟩
  intro L s st st' hL hs hg hst _ e1
  have hS := (run_snd (P := ⟨L, s, groupsOf t, fun _ _ _ => True⟩) hnul t false true hsafe hsnd hsl (fun _ _ _ _ _ _ _ => trivial) []
    (by simp) (by simp)).2
  have hK := run_cm (P := ⟨L, s, groupsOf t, fun _ _ _ => True⟩) hnul (fun _ _ _ => trivial) he hlen t true true .univ false false
    (fun _ => True) hsafe hcm hsl [] (by simp) (by simp) (fun _ _ => trivial) (fun j _ => Fol.holds_univ _ _) (by simp)
  have hden : st'.accepted = true → Den cx.query (toRx t) (off st) (off st') := fun ha => hS st st' hg (fun _ => hst) e1 ha
  have hiff : st'.accepted = true ↔ BeginsAt cx.query (toRx t) (off st) := by
    refine ⟨fun ha => ⟨_, hden ha⟩, ?_⟩
    rintro ⟨j, hj⟩
    obtain ⟨s2, e2, a2, _⟩ := hK st hg (by simp) j hj trivial
    rw [e1] at e2
    simp only [Option.some.injEq] at e2
    rw [e2]; exact a2
  refine ⟨hiff, hden, ?_⟩
  intro ha x h1 h2 hx
  have hno : ¬ BeginsAt cx.query (toRx t) (off st) := by
    intro h; rw [hiff.2 h] at ha; simp at ha
  simp only [skipOk, Bool.or_eq_true] at hsk
  rcases hsk with hsk | hsk
  · obtain ⟨d, hd, hin⟩ := run_startClean (p := fun _ => false) t hsk [] (by simp) st st' hg hst e1 ha
    have : d = 0 := by
      cases d with
      | zero => rfl
      | succ d => obtain ⟨c, _, hc⟩ := hin 0 (by omega); simp at hc
    subst this
    have : x = off st := by unfold off at h1 h2 ⊢; unfold off at hd; omega
    rw [this] at hx; exact hno hx
  · obtain ⟨m, hm⟩ := Option.isSome_iff_exists.1 hsk
    obtain ⟨d, hd, hin⟩ := run_head t true m hm [] (by simp) st st' hg hst e1 ha
    obtain ⟨j, hj⟩ := hx
    have hxe : x = off st + (x - off st) := by omega
    have hle : x - off st ≤ d := by
      have : off st' = off st + d := by
        have : st'.pos = ((off st + d : Nat) : Int) := hd
        show st'.pos.toNat = off st + d
        omega
      omega
    rw [hxe] at hj
    obtain ⟨j', hj', _⟩ := head_shift t true m hm (off st) (x - off st) j (inClass_mono hin hle) hj
    exact hno ⟨j', hj'⟩

/-- The smallest candidate at or after `frm`, below the end of the query. -/
structure LeftFromG (cx : Ctx) (B : Nat → Prop) (R : Nat → St → Prop) (frm : Nat) (st : St) : Prop where
  hit : st.accepted = true → ∃ s : Nat, st.start = s ∧ frm ≤ s ∧ s < cx.query.length ∧ R s st ∧
    ∀ x, frm ≤ x → B x → s ≤ x
  miss : st.accepted = false → ∀ x, frm ≤ x → x < cx.query.length → ¬ B x

abbrev LeftFromR (cx : Ctx) (R : Nat → Nat → Prop) (frm : Nat) (st : St) : Prop := LeftFromG cx (Some2 R) (fun s st => R s (off st)) frm st

theorem nextLoop_left {cx : Ctx} {t : Node} {B : Nat → Prop} {R : Nat → St → Prop} (h : AttemptsG cx t B R) {L : Int} (hL : 0 ≤ L) : ∀ (f : Nat) (st st' : St),
    L ≤ st.start → st.start = st.pos → st.groups.length = groupsOf t → (∀ v ∈ st.groups, ViewIn cx L v) →
    nextLoop cx (run cx t []) f st = .ok st' → LeftFromG cx B R (off st) st' := by
  intro f
  induction f with
  | zero =>
    intro st st' h1 hs hlen hv e
    simp only [nextLoop] at e
    split at e
    · simp at e
    · rename_i hge
      simp only [Outcome.ok.injEq] at e; subst e
      refine ⟨by simp, fun _ x hx hlt => ?_⟩
      simp only [Ctx.qend] at hge
      unfold off at hx
      omega
  | succ f ih =>
    intro st st' h1 hs hlen hv e
    simp only [nextLoop] at e
    split at e
    · rename_i hlt
      split at e
      · simp at e
      · rename_i st1 e1
        have hg : Good cx ⟨L, st.start, groupsOf t, fun _ _ _ => True⟩ st :=
          ⟨rfl, ⟨hL, h1⟩, ⟨by simp only; omega, by omega⟩, hlen, hv, fun _ _ _ _ => trivial⟩
        obtain ⟨hy1, hy2, hy3⟩ := h.yes L st.start st st1 hL h1 hg hs (Or.inr (by omega)) e1
        have g1 := (h.good L st.start hL h1).get hg e1
        have hst := g1.start; have hp := g1.pos
        simp only at hst hp
        obtain ⟨hn, _⟩ := hg.nat
        split at e
        · rename_i ha
          simp only [Outcome.ok.injEq] at e; subst e
          refine ⟨fun _ => ⟨off st, by omega, Nat.le_refl _, by simp only [Ctx.qend] at hlt; omega, hy2 ha, fun x hx _ => hx⟩, fun hf => ?_⟩
          rw [ha] at hf; simp at hf
        · rename_i ha
          have hmiss := hy3 (by simpa using ha)
          have ih := ih { st1 with start := st1.pos + 1, pos := st1.pos + 1 } st' (by simp only; omega) rfl g1.len g1.views e
          have ho : off { st1 with start := st1.pos + 1, pos := st1.pos + 1 } = off st1 + 1 := by
            show (st1.pos + 1).toNat = st1.pos.toNat + 1
            omega
          rw [ho] at ih
          have hge1 : off st ≤ off st1 := by
            show st.pos.toNat ≤ st1.pos.toNat
            omega
          refine ⟨fun hacc => ?_, fun hrej x hx hlt => ?_⟩
          · obtain ⟨s, s1, s2, s0, s3, s4⟩ := ih.hit hacc
            refine ⟨s, s1, by omega, s0, s3, fun x hx hst => ?_⟩
            by_cases hxx : x ≤ off st1
            · exact absurd hst (hmiss x hx hxx)
            · exact s4 x (by omega) hst
          · by_cases hxx : x ≤ off st1
            · exact hmiss x hx hxx
            · exact ih.miss hrej x (by omega) hlt
    · rename_i hge
      simp only [Outcome.ok.injEq] at e; subst e
      refine ⟨by simp, fun _ x hx hlt => ?_⟩
      simp only [Ctx.qend] at hge
      unfold off at hx
      omega

theorem next_left {cx : Ctx} {t : Node} {B : Nat → Prop} {R : Nat → St → Prop} (h : AttemptsG cx t B R) {f : Nat} {st st' : St} (h0 : 0 ≤ st.pos)
    (e : next cx t f st = .ok st') : LeftFromG cx B R (off st) st' := by
  exact nextLoop_left h (L := st.pos) h0 f { st with groups := List.replicate (groupsOf t) none, start := st.pos } st' (by simp) rfl (by simp) (replicate_views cx _ _) e

/-- The same for the constructor, which also tries the empty query. -/
structure LeftMostG (cx : Ctx) (B : Nat → Prop) (R : Nat → St → Prop) (st : St) : Prop where
  hit : st.accepted = true → ∃ s : Nat, st.start = s ∧ (s = 0 ∨ s < cx.query.length) ∧ R s st ∧
    ∀ x, B x → s ≤ x
  miss : st.accepted = false → ∀ x, (x = 0 ∨ x < cx.query.length) → ¬ B x

abbrev LeftMostR (cx : Ctx) (R : Nat → Nat → Prop) (st : St) : Prop := LeftMostG cx (Some2 R) (fun s st => R s (off st)) st

theorem construct_left {cx : Ctx} {t : Node} {B : Nat → Prop} {R : Nat → St → Prop} (h : AttemptsG cx t B R) {f : Nat} {st : St} (e : construct cx t f = .ok st) :
    LeftMostG cx B R st := by
  simp only [construct] at e
  split at e
  · simp at e
  · rename_i st1 e1
    have hq : 0 ≤ cx.qend := by simp [Ctx.qend]
    have hg : Good cx ⟨0, 0, groupsOf t, fun _ _ _ => True⟩ (initSt t) :=
      ⟨rfl, ⟨by simp, by simp⟩, ⟨by simp [initSt], by simp [initSt, hq]⟩, by simp [initSt], replicate_views cx _ _, fun _ _ _ _ => trivial⟩
    obtain ⟨hy1, hy2, hy3⟩ := h.yes 0 0 (initSt t) st1 (by omega) (by omega) hg rfl (Or.inl rfl) e1
    have g1 := (h.good 0 0 (by omega) (by omega)).get hg e1
    have hst := g1.start; have hp := g1.pos
    simp only at hst hp
    have h00 : off (initSt t) = 0 := rfl
    rw [h00] at hy1 hy2 hy3
    split at e
    · rename_i ha
      simp only [Outcome.ok.injEq] at e; subst e
      refine ⟨fun _ => ⟨0, by simpa using hst, Or.inl rfl, hy2 ha, fun x _ => Nat.zero_le _⟩, fun hf => ?_⟩
      rw [ha] at hf; simp at hf
    · rename_i ha
      have hmiss := hy3 (by simpa using ha)
      have hl := next_left h (by omega) e
      refine ⟨fun hacc => ?_, fun hrej x hx => ?_⟩
      · obtain ⟨s, s1, s2, s0, s3, s4⟩ := hl.hit hacc
        refine ⟨s, s1, Or.inr s0, s3, fun x hst => ?_⟩
        by_cases hxx : x ≤ off st1
        · exact absurd hst (hmiss x (Nat.zero_le _) hxx)
        · exact s4 x (by omega) hst
      · rcases hx with rfl | hx
        · exact hmiss 0 (Nat.le_refl _) (Nat.zero_le _)
        · by_cases hxx : x ≤ off st1
          · exact hmiss x (Nat.zero_le _) hxx
          · exact hl.miss hrej x (by omega) hx

abbrev LeftFrom (cx : Ctx) (t : Node) := LeftFromR cx (Den cx.query (toRx t))
abbrev LeftMost (cx : Ctx) (t : Node) := LeftMostR cx (Den cx.query (toRx t))

end ERegex

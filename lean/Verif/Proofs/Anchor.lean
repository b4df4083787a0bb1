import Verif.Proofs.Search
import Verif.Proofs.TreeBuilder
/-!
# Anchors
-/
set_option autoImplicit false
namespace ERegex
open Spec

mutual
/-- Trees every match of which goes through `^` first. -/
def anchored : Node → Bool
  | .bos => true
  | .simple m _ | .group m _ _ => anchored m
  | .alt cs => !cs.isEmpty && anchoreds cs
  | .greedy m lo hi _ | .lazy m lo hi _ | .possessive m lo hi _ => decide (1 ≤ lo) && decide (1 ≤ hi) && anchored m
  | .repeated m n _ => decide (1 ≤ n) && anchored m
  | _ => false
/-- All of a list. -/
def anchoreds : List Node → Bool
  | [] => true
  | c :: cs => anchored c && anchoreds cs
end

/-- Away from the start it fails and changes nothing else. -/
def Refuses (k : K) : Prop := ∀ st, st.pos ≠ 0 → k st = some { st with accepted := false }

theorem refuses_acc {k : K} (h : Refuses k) {st st' : St} (e : k st = some st') (ha : st'.accepted = true) : st.pos = 0 := by
  by_cases h0 : st.pos = 0
  · exact h0
  · rw [h st h0] at e
    simp at e; subst e; simp at ha

mutual
theorem run_refuses (cx : Ctx) : ∀ (t : Node), anchored t = true → ∀ inj, Refuses (run cx t inj)
  | .bos, _, inj => by
    intro st h
    simp only [run, bosMatch]
    split
    · rfl
    · simp [h]
  | .simple m cs, ha, inj => by
    intro st h
    simp only [anchored] at ha
    simp [run, simpleMatch, run_refuses cx m ha [] st h]
  | .group m idx cs, ha, inj => by
    intro st h
    simp only [anchored] at ha
    simp [run, groupMatch, run_refuses cx m ha _ st h]
  | .alt cs, ha, inj => by
    simp only [anchored, Bool.and_eq_true, Bool.not_eq_true', List.isEmpty_eq_false_iff] at ha
    exact dfs_refuses cx cs ha.1 ha.2 inj
  | .greedy m lo hi cs, ha, inj => by
    intro st h
    simp only [anchored, Bool.and_eq_true, decide_eq_true_eq] at ha
    obtain ⟨n, hn⟩ : ∃ n, lo = n + 1 := ⟨lo - 1, by omega⟩
    subst hn
    simp [run, greedyMatch, repLoop, run_refuses cx m ha.2 [] st h]
  | .lazy m lo hi cs, ha, inj => by
    intro st h
    simp only [anchored, Bool.and_eq_true, decide_eq_true_eq] at ha
    obtain ⟨n, hn⟩ : ∃ n, lo = n + 1 := ⟨lo - 1, by omega⟩
    subst hn
    simp [run, lazyMatch, repLoop, run_refuses cx m ha.2 [] st h]
  | .possessive m lo hi cs, ha, inj => by
    intro st h
    simp only [anchored, Bool.and_eq_true, decide_eq_true_eq] at ha
    obtain ⟨n, hn⟩ : ∃ n, hi = n + 1 := ⟨hi - 1, by omega⟩
    subst hn
    have : 0 < lo := by omega
    simp [run, possessiveMatch, possLoop, run_refuses cx m ha.2 inj st h, this]
  | .repeated m n cs, ha, inj => by
    intro st h
    simp only [anchored, Bool.and_eq_true, decide_eq_true_eq] at ha
    obtain ⟨k, hn⟩ : ∃ k, n = k + 1 := ⟨n - 1, by omega⟩
    subst hn
    simp [run, repeatedMatch, repLoop, run_refuses cx m ha.2 [] st h]
  | .exact .., ha, _ => by simp [anchored] at ha
  | .range .., ha, _ => by simp [anchored] at ha
  | .space, ha, _ => by simp [anchored] at ha
  | .word, ha, _ => by simp [anchored] at ha
  | .any, ha, _ => by simp [anchored] at ha
  | .eol, ha, _ => by simp [anchored] at ha
  | .negated m, ha, _ => by simp [anchored] at ha
theorem dfs_refuses (cx : Ctx) : ∀ (cs : List Node), cs ≠ [] → anchoreds cs = true → ∀ inj, Refuses (dfs (runs cx cs) inj)
  | [], h, _, _ => absurd rfl h
  | [c], _, ha, inj => by
    simp only [anchoreds, Bool.and_true] at ha
    intro st h
    simp only [runs, dfs]
    exact run_refuses cx c ha inj st h
  | c :: d :: cs, _, ha, inj => by
    simp only [anchoreds, Bool.and_eq_true] at ha
    intro st h
    have h1 := run_refuses cx c ha.1 inj st h
    have h2 := dfs_refuses cx (d :: cs) (by simp) (by simp [anchoreds, ha.2]) [] { st with accepted := true } h
    simp only [runs, dfs, h1] at h2 ⊢
    simpa using h2
end

/-- Every accepted result of an anchored tree begins at the start of the query. -/
theorem nextLoop_anchored {cx : Ctx} {t : Node} (h : anchored t = true) : ∀ (f : Nat) (st st' : St), st.start = st.pos →
    nextLoop cx (run cx t []) f st = .ok st' → st'.accepted = true → st'.start = 0 := by
  intro f
  induction f with
  | zero =>
    intro st st' _ e ha
    simp only [nextLoop] at e
    split at e
    · simp at e
    · simp only [Outcome.ok.injEq] at e; subst e; simp at ha
  | succ f ih =>
    intro st st' hs e ha
    simp only [nextLoop] at e
    split at e
    · split at e
      · simp at e
      · rename_i st1 e1
        split at e
        · rename_i h1
          simp only [Outcome.ok.injEq] at e; subst e
          rw [run_start cx t _ _ e1, hs]
          exact refuses_acc (run_refuses cx t h []) e1 h1
        · exact ih _ _ rfl e ha
    · simp only [Outcome.ok.injEq] at e; subst e; simp at ha

theorem reach_anchored {cx : Ctx} {t : Node} (h : anchored t = true) {st : St} (hr : Reach cx t st) (ha : st.accepted = true) :
    st.start = 0 := by
  cases hr with
  | @make f st e =>
    simp only [construct] at e
    split at e
    · simp at e
    · rename_i st1 e1
      split at e
      · simp only [Outcome.ok.injEq] at e; subst e; rw [run_start cx t _ _ e1]; rfl
      · exact nextLoop_anchored h f _ _ rfl e ha
  | @next f st0 st _ e => exact nextLoop_anchored h f _ _ rfl e ha

mutual
theorem anchored_opt : ∀ (t : Node) (inj : List (List Int)), anchored t = true → anchored (opt t inj) = true
  | .bos, _, _ => rfl
  | .simple m [], inj, h => by simp only [anchored] at h; simpa [opt] using anchored_opt m inj h
  | .simple m (c :: cs), inj, h => by simp only [anchored] at h; simpa [opt, anchored] using anchored_opt m inj h
  | .alt [], _, h => by simp [anchored] at h
  | .alt [c], inj, h => by simp [anchored, anchoreds] at h; simpa [opt] using anchored_opt c inj h
  | .alt (c :: d :: cs), _, h => by
    simp [anchored, anchoreds] at h
    simp [opt, anchored, anchoreds, anchored_opt c [] h.1, anchored_opt d [] h.2.1, anchoreds_opts cs h.2.2]
  | .greedy m lo hi cs, inj, h => by
    simp only [anchored, Bool.and_eq_true, decide_eq_true_eq] at h
    simp only [opt]
    split <;> simp [anchored, h.1, anchored_opt m [] h.2]
  | .lazy m lo hi cs, inj, h => by
    simp only [anchored, Bool.and_eq_true, decide_eq_true_eq] at h
    simp only [opt]
    split <;> simp [anchored, h.1, anchored_opt m [] h.2]
  | .possessive m lo hi cs, _, h => by
    simp only [anchored, Bool.and_eq_true, decide_eq_true_eq] at h
    simp [opt, anchored, h.1, anchored_opt m [] h.2]
  | .repeated m n cs, _, h => by
    simp only [anchored, Bool.and_eq_true, decide_eq_true_eq] at h
    simp [opt, anchored, h.1, anchored_opt m [] h.2]
  | .group m idx cs, inj, h => by simp only [anchored] at h; simpa [opt, anchored] using anchored_opt m _ h
  | .exact .., _, h => by simp [anchored] at h
  | .range .., _, h => by simp [anchored] at h
  | .space, _, h => by simp [anchored] at h
  | .word, _, h => by simp [anchored] at h
  | .any, _, h => by simp [anchored] at h
  | .eol, _, h => by simp [anchored] at h
  | .negated m, _, h => by simp [anchored] at h
theorem anchoreds_opts : ∀ (cs : List Node), anchoreds cs = true → anchoreds (opts cs) = true
  | [], _ => rfl
  | c :: cs, h => by
    simp only [anchoreds, Bool.and_eq_true] at h
    simp [opts, anchoreds, anchored_opt c [] h.1, anchoreds_opts cs h.2]
end

/-! ## End anchor -/

mutual
/-- Trees every match of which ends with `$`. -/
def ended : Node → Bool
  | .eol => true
  | .simple m cs | .group m _ cs => if cs.isEmpty then ended m else endeds cs
  | .alt cs | .greedy _ _ _ cs | .lazy _ _ _ cs | .possessive _ _ _ cs | .repeated _ _ cs => !cs.isEmpty && endeds cs
  | _ => false
/-- All of a list. -/
def endeds : List Node → Bool
  | [] => true
  | c :: cs => ended c && endeds cs
end

/-- At the end of the query or behind a newline. -/
def AtEnd (cx : Ctx) (p : Int) : Prop := p = cx.qend ∨ cx.read (p - 1) = some 10

/-- Accepted only at the end. -/
def EndK (cx : Ctx) (k : K) : Prop := ∀ st st', k st = some st' → st'.accepted = true → AtEnd cx st'.pos

theorem btLoop_verdict {bt m : K} {start : Int} : ∀ (n : Nat) (a b : St), btLoop bt m start n a = some (true, b) →
    b.accepted = true ∧ ∃ c, bt c = some b := by
  intro n
  induction n with
  | zero => intro a b e; simp [btLoop] at e
  | succ n ih =>
    intro a b e
    simp only [btLoop] at e
    split at e
    · simp at e
    · rename_i c ec
      split at e
      · rename_i ha; simp at e; subst e; exact ⟨ha, _, ec⟩
      · split at e
        · simp at e
        · exact ih _ _ e

theorem lazyLoop_acc {cx : Ctx} {m : K} {cs : List M} {inj : List K} {start : Int} (hc : cs ≠ []) : ∀ (n : Nat) (a b : St),
    lazyLoop cx m cs inj start n a = some (true, b) → b.accepted = true → ∃ c, dfs cs [] c = some b := by
  have he : cs.isEmpty = false := by cases cs <;> simp_all
  intro n
  induction n with
  | zero => intro a b e; simp [lazyLoop] at e
  | succ n ih =>
    intro a b e ha
    simp only [lazyLoop, he] at e
    split at e
    · simp only [Bool.false_eq_true, if_false] at e
      split at e
      · simp at e
      · rename_i c ec
        split at e
        · simp at e; subst e; exact ⟨_, ec⟩
        · split at e
          · simp at e
          · rename_i d ed
            split at e
            · exact ih _ _ e ha
            · rename_i hd; simp at e; subst e; exact absurd ha hd
    · simp at e

theorem repLoop_false {m : K} : ∀ (n : Nat) (a b : St), repLoop m n a = some (false, b) → b.accepted = false := by
  intro n
  induction n with
  | zero => intro a b e; simp [repLoop] at e
  | succ n ih =>
    intro a b e
    simp only [repLoop] at e
    split at e
    · simp at e
    · split at e
      · exact ih _ _ e
      · rename_i h; simp at e; subst e; simpa using h

theorem possLoop_false {m : K} {lo : Nat} : ∀ (n i : Nat) (last : Int) (a b : St), possLoop m lo n i last a = some (false, b) →
    b.accepted = false := by
  intro n
  induction n with
  | zero => intro i last a b e; simp [possLoop] at e
  | succ n ih =>
    intro i last a b e
    simp only [possLoop] at e
    split at e
    · simp at e
    · split at e
      · exact ih _ _ _ _ e
      · rename_i h
        split at e
        · simp at e; subst e; simpa using h
        · simp at e

mutual
theorem run_ended (cx : Ctx) : ∀ (t : Node), ended t = true → ∀ inj, EndK cx (run cx t inj)
  | .eol, _, inj => by
    intro a b e ha
    simp only [run, eolMatch] at e
    split at e
    · simp at e; subst e; simp at ha
    · split at e
      · simp at e
      · rename_i c hc
        split at e
        · rename_i h10
          simp at e; subst e
          right
          simpa [hc] using h10
        · simp at e; subst e
          simp at ha
          left; exact ha
  | .simple m cs, h, inj => by
    intro a b e ha
    simp only [run, simpleMatch] at e
    simp only [ended] at h
    split at e
    · simp at e
    · rename_i c ec
      split at e
      · rename_i hca
        split at e
        · simp at e
        · rename_i d ed
          split at e
          · rename_i hda
            simp at e; subst e
            split at h
            · rename_i hemp
              simp at hemp; subst hemp
              simp [runs, dfs] at ed
              subst ed
              exact run_ended cx m h [] _ _ ec hca
            · rename_i hne
              exact dfs_ended cx cs (by simpa using hne) h inj _ _ ed ha
          · rename_i hda; simp at e; subst e; exact absurd ha hda
      · rename_i hca; simp at e; subst e; exact absurd ha hca
  | .group m idx cs, h, inj => by
    intro a b e ha
    simp only [run, groupMatch] at e
    simp only [ended] at h
    split at e
    · simp at e
    · rename_i c ec
      split at e
      · rename_i hca
        split at e
        · split at h
          · rename_i hemp
            simp at hemp; subst hemp
            simp [runs, dfs] at e
            subst e
            have := run_ended cx m h _ _ _ ec hca
            exact this
          · rename_i hne
            exact dfs_ended cx cs (by simpa using hne) h _ _ _ e ha
        · simp at e
      · rename_i hca; simp at e; subst e; exact absurd ha hca
  | .alt cs, h, inj => by
    simp only [ended, Bool.and_eq_true, Bool.not_eq_true', List.isEmpty_eq_false_iff] at h
    exact dfs_ended cx cs h.1 h.2 inj
  | .greedy m lo hi cs, h, inj => by
    simp only [ended, Bool.and_eq_true, Bool.not_eq_true', List.isEmpty_eq_false_iff] at h
    have hne : (runs cx cs).isEmpty = false := by
      cases cs with
      | nil => simp at h
      | cons c cs => simp [runs]
    have hd := dfs_ended cx cs h.1 h.2 []
    have hb : EndK cx (greedyBacktrack (runs cx cs) inj) := by
      intro a b e ha
      simp only [greedyBacktrack, hne] at e
      exact hd _ _ e ha
    simp only [run]
    split
    · intro a b e ha
      simp only [optionalMatch] at e
      split at e
      · simp at e
      · split at e
        · simp at e
        · rename_i d ed
          split at e
          · exact hb _ _ e ha
          · simp at e; subst e; exact hb _ _ ed ha
    · intro a b e ha
      simp only [greedyMatch] at e
      split at e
      · simp at e
      · rename_i c ec
        simp at e; subst e
        rw [repLoop_false _ _ _ ec] at ha; simp at ha
      · split at e
        · simp at e
        · split at e
          · simp at e
          · rename_i g eg
            simp at e; subst e
            obtain ⟨_, c, hc⟩ := btLoop_verdict _ _ _ eg
            exact hb _ _ hc ha
          · exact hd _ _ e ha
  | .lazy m lo hi cs, h, inj => by
    simp only [ended, Bool.and_eq_true, Bool.not_eq_true', List.isEmpty_eq_false_iff] at h
    have hne : runs cx cs ≠ [] := by
      cases cs with
      | nil => simp at h
      | cons c cs => simp [runs]
    have hd := dfs_ended cx cs h.1 h.2 []
    intro a b e ha
    simp only [run, lazyMatch] at e
    split at e
    · simp at e
    · rename_i c ec
      simp at e; subst e
      rw [repLoop_false _ _ _ ec] at ha; simp at ha
    · split at e
      · simp at e
      · rename_i g eg
        simp at e; subst e
        obtain ⟨c, hc⟩ := lazyLoop_acc hne _ _ _ eg ha
        exact hd _ _ hc ha
      · exact hd _ _ e ha
  | .possessive m lo hi cs, h, inj => by
    simp only [ended, Bool.and_eq_true, Bool.not_eq_true', List.isEmpty_eq_false_iff] at h
    have hd := dfs_ended cx cs h.1 h.2 []
    intro a b e ha
    simp only [run, possessiveMatch] at e
    split at e
    · simp at e
    · rename_i c ec
      simp at e; subst e
      rw [possLoop_false _ _ _ _ _ ec] at ha; simp at ha
    · exact hd _ _ e ha
  | .repeated m n cs, h, inj => by
    simp only [ended, Bool.and_eq_true, Bool.not_eq_true', List.isEmpty_eq_false_iff] at h
    have hd := dfs_ended cx cs h.1 h.2 []
    intro a b e ha
    simp only [run, repeatedMatch] at e
    split at e
    · simp at e
    · rename_i c ec
      simp at e; subst e
      rw [repLoop_false _ _ _ ec] at ha; simp at ha
    · exact hd _ _ e ha
  | .exact .., ha, _ => by simp [ended] at ha
  | .range .., ha, _ => by simp [ended] at ha
  | .space, ha, _ => by simp [ended] at ha
  | .word, ha, _ => by simp [ended] at ha
  | .any, ha, _ => by simp [ended] at ha
  | .bos, ha, _ => by simp [ended] at ha
  | .negated m, ha, _ => by simp [ended] at ha
theorem dfs_ended (cx : Ctx) : ∀ (cs : List Node), cs ≠ [] → endeds cs = true → ∀ inj, EndK cx (dfs (runs cx cs) inj)
  | [], h, _, _ => absurd rfl h
  | [c], _, ha, inj => by
    simp only [endeds, Bool.and_true] at ha
    intro a b e hb
    simp only [runs, dfs] at e
    exact run_ended cx c ha inj a b e hb
  | c :: d :: cs, _, ha, inj => by
    simp only [endeds, Bool.and_eq_true] at ha
    have h2 := dfs_ended cx (d :: cs) (by simp) (by simp [endeds, ha.2]) []
    intro a b e hb
    simp only [runs, dfs] at e h2
    split at e
    · simp at e
    · rename_i s1 e1
      split at e
      · rename_i h1; simp at e; subst e; exact run_ended cx c ha.1 inj a _ e1 h1
      · exact h2 _ _ e hb
end

theorem nextLoop_end {cx : Ctx} {k : K} (h : EndK cx k) : ∀ (f : Nat) (st st' : St),
    nextLoop cx k f st = .ok st' → st'.accepted = true → AtEnd cx st'.pos := by
  intro f
  induction f with
  | zero =>
    intro st st' e ha
    simp only [nextLoop] at e
    split at e
    · simp at e
    · simp only [Outcome.ok.injEq] at e; subst e; simp at ha
  | succ f ih =>
    intro st st' e ha
    simp only [nextLoop] at e
    split at e
    · split at e
      · simp at e
      · rename_i st1 e1
        split at e
        · rename_i h1
          simp only [Outcome.ok.injEq] at e; subst e
          exact h _ _ e1 h1
        · exact ih _ _ e ha
    · simp only [Outcome.ok.injEq] at e; subst e; simp at ha

theorem reach_end {cx : Ctx} {t : Node} (h : ended t = true) {st : St} (hr : Reach cx t st) (ha : st.accepted = true) :
    AtEnd cx st.pos := by
  have hk := run_ended cx t h []
  cases hr with
  | @make f st e =>
    simp only [construct] at e
    split at e
    · simp at e
    · rename_i st1 e1
      split at e
      · simp only [Outcome.ok.injEq] at e; subst e; exact hk _ _ e1 ha
      · exact nextLoop_end hk f _ _ e ha
  | @next f st0 st _ e => exact nextLoop_end hk f _ _ e ha

theorem opts_isEmpty (cs : List Node) : (opts cs).isEmpty = cs.isEmpty := by cases cs <;> rfl

mutual
theorem ended_opt : ∀ (t : Node) (inj : List (List Int)), ended t = true → ended (opt t inj) = true
  | .eol, _, _ => rfl
  | .simple m [], inj, h => by simp [ended] at h; simpa [opt] using ended_opt m inj h
  | .simple m (c :: cs), inj, h => by
    simp [ended, endeds] at h
    simp [opt, ended, endeds, ended_opt c [] h.1, endeds_opts cs h.2]
  | .alt [], _, h => by simp [ended] at h
  | .alt [c], inj, h => by simp [ended, endeds] at h; simpa [opt] using ended_opt c inj h
  | .alt (c :: d :: cs), _, h => by
    simp [ended, endeds] at h
    simp [opt, ended, endeds, ended_opt c [] h.1, ended_opt d [] h.2.1, endeds_opts cs h.2.2]
  | .greedy m lo hi cs, inj, h => by
    simp only [ended, Bool.and_eq_true, Bool.not_eq_true'] at h
    simp only [opt]
    split <;> simp [ended, opts_isEmpty, h.1, endeds_opts cs h.2]
  | .lazy m lo hi cs, inj, h => by
    simp only [ended, Bool.and_eq_true, Bool.not_eq_true'] at h
    simp only [opt]
    split <;> simp [ended, opts_isEmpty, h.1, endeds_opts cs h.2]
  | .possessive m lo hi cs, _, h => by
    simp only [ended, Bool.and_eq_true, Bool.not_eq_true'] at h
    simp [opt, ended, opts_isEmpty, h.1, endeds_opts cs h.2]
  | .repeated m n cs, _, h => by
    simp only [ended, Bool.and_eq_true, Bool.not_eq_true'] at h
    simp [opt, ended, opts_isEmpty, h.1, endeds_opts cs h.2]
  | .group m idx cs, inj, h => by
    simp only [ended] at h
    simp only [opt, ended, opts_isEmpty]
    split at h
    · rename_i he; simp [he, ended_opt m _ h]
    · rename_i he; simp [he, endeds_opts cs h]
  | .exact .., _, h => by simp [ended] at h
  | .range .., _, h => by simp [ended] at h
  | .space, _, h => by simp [ended] at h
  | .word, _, h => by simp [ended] at h
  | .any, _, h => by simp [ended] at h
  | .bos, _, h => by simp [ended] at h
  | .negated m, _, h => by simp [ended] at h
theorem endeds_opts : ∀ (cs : List Node), endeds cs = true → endeds (opts cs) = true
  | [], _ => rfl
  | c :: cs, h => by
    simp only [endeds, Bool.and_eq_true] at h
    simp [opts, endeds, ended_opt c [] h.1, endeds_opts cs h.2]
end

end ERegex

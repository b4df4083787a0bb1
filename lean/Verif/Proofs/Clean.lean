import Verif.Proofs.Total
/-!
# Failures that restore the position, and matches that ignore the flag they start with
-/
set_option autoImplicit false
namespace ERegex
open Spec

mutual
/-- Trees whose `match` restores the position when it fails. -/
def clean : Node → Bool
  | .exact .. | .range .. | .word | .any | .bos | .eol => true
  | .space | .negated _ => false
  | .simple m _ => clean m
  | .alt cs => cleans cs
  | .greedy m lo hi cs =>
    !optPath m lo hi &&
      ((totals false cs && (decide (lo = 0) || (decide (lo = 1) && clean m))) || (decide (lo = 0) && single m && cleans cs))
  | .lazy m lo _ cs => totals false cs && cleans cs && (decide (lo = 0) || (decide (lo = 1) && clean m))
  | .possessive m lo _ cs => totals false cs && cleans cs && (decide (lo = 0) || (decide (lo = 1) && clean m))
  | .repeated m n cs => (decide (n = 0) && cleans cs) || (decide (n = 1) && totals false cs && clean m)
  | .group m _ cs => totals true cs && clean m
/-- All of a list. -/
def cleans : List Node → Bool
  | [] => true
  | c :: cs => clean c && cleans cs
end

theorem clean_dfs : ∀ (cs : List M) (inj : List K), (∀ f ∈ cs, ∀ inj, Clean (f inj)) → Clean (dfs cs inj) := by
  intro cs
  induction cs with
  | nil => intro inj _ st st' _ e _; simp only [dfs, Option.some.injEq] at e; rw [e]
  | cons f cs ih =>
    intro inj h st st' h0 e ha
    cases cs with
    | nil => exact h f (by simp) inj st st' h0 (by simpa [dfs] using e) ha
    | cons g cs =>
      simp only [dfs] at e
      split at e
      · simp at e
      · rename_i st1 h1
        split at e
        · rename_i hacc
          simp only [Option.some.injEq] at e
          subst e
          simp [ha] at hacc
        · rename_i hrej
          have hp := h f (by simp) inj st st1 h0 h1 (by simpa using hrej)
          have := ih [] (fun f hf => h f (by simp [hf])) { st1 with accepted := true } st' (by simpa [hp] using h0) e ha
          rw [this]; exact hp

theorem clean_guarded {cx : Ctx} {k : K} (h : Clean k) : Clean (guarded cx k) := by
  intro st st' h0 e ha
  simp only [guarded] at e
  split at e
  · simp only [Option.some.injEq] at e; rw [← e]
  · exact h st st' h0 e ha

theorem clean_oneChar {cx : Ctx} {p : Int → Bool} : Clean (oneChar cx p) := by
  intro st st' h0 e ha
  simp only [oneChar] at e
  split at e
  · simp at e
  · split at e
    · simp only [Option.some.injEq] at e; subst e; simp at ha
    · simp only [Option.some.injEq] at e; subst e; rfl

theorem clean_exactLoop {cx : Ctx} {b : Int} : ∀ (s : List Int) (st st' : St), st.accepted = true →
    exactLoop cx b s st = some st' → st'.accepted = false → st'.pos = b := by
  intro s
  induction s with
  | nil => intro st st' h e ha; simp only [exactLoop, Option.some.injEq] at e; subst e; simp [h] at ha
  | cons c s ih =>
    intro st st' h e ha
    simp only [exactLoop] at e
    split at e
    · simp at e
    · split at e
      · simp only [Option.some.injEq] at e; subst e; rfl
      · exact ih { st with pos := st.pos + 1 } st' h e ha

theorem clean_charStep {cx : Ctx} {p : Int → Bool} : Clean (charStep cx p) := clean_guarded clean_oneChar

theorem clean_simple {m : K} {cs : List M} {inj : List K} (h : Clean m) : Clean (simpleMatch m cs inj) := by
  intro st st' h0 e ha
  simp only [simpleMatch] at e
  split at e
  · simp at e
  · rename_i st1 h1
    split at e
    · split at e
      · simp at e
      · split at e
        · rename_i hacc
          simp only [Option.some.injEq] at e; subst e; simp [ha] at hacc
        · simp only [Option.some.injEq] at e; subst e; rfl
    · simp only [Option.some.injEq] at e; subst e
      exact h st st1 h0 h1 ha

/-- The first mandatory repetition is the only one that can fail: nothing has moved. -/
theorem repLoop_one {m : K} (h : Clean m) {lo : Nat} (hlo : lo = 0 ∨ lo = 1) {st st' : St} (h0 : 0 ≤ st.pos)
    (e : repLoop m lo st = some (false, st')) : st'.accepted = false ∧ st'.pos = st.pos := by
  rcases hlo with rfl | rfl
  · simp [repLoop] at e
  · simp only [repLoop] at e
    split at e
    · simp at e
    · rename_i st1 h1
      split at e
      · simp at e
      · rename_i hr
        simp only [Option.some.injEq, Prod.mk.injEq] at e
        obtain ⟨-, rfl⟩ := e
        exact ⟨by simpa using hr, h st st1 h0 h1 (by simpa using hr)⟩

theorem clean_greedy_total {m : K} {lo hi : Nat} {cs : List M} {inj : List K} (hd : Total (dfs cs [])) (h : lo = 0 ∨ (lo = 1 ∧ Clean m)) :
    Clean (greedyMatch m lo hi cs inj) := by
  intro st st' h0 e ha
  simp only [greedyMatch] at e
  split at e
  · simp at e
  · rename_i st1 h1
    simp only [Option.some.injEq] at e; subst e
    rcases h with rfl | ⟨rfl, hm⟩
    · simp [repLoop] at h1
    · exact (repLoop_one hm (Or.inr rfl) h0 h1).2
  · split at e
    · simp at e
    · split at e
      · simp at e
      · rename_i h3
        simp only [Option.some.injEq] at e; subst e
        simp [btLoop_acc _ _ _ h3] at ha
      · have := hd _ _ e rfl
        simp [ha] at this

theorem clean_greedy_rest {cx : Ctx} {p : Int → Bool} {hi : Nat} {cs : List M} {inj : List K} (hne : cs.isEmpty = false)
    (hd : Rest (dfs cs [])) (hcl : Clean (dfs cs [])) : Clean (greedyMatch (charStep cx p) 0 hi cs inj) := by
  intro st st' h0 e ha
  obtain ⟨i, hi'⟩ : ∃ i : Nat, st.pos = i := ⟨st.pos.toNat, by omega⟩
  have hbt : greedyBacktrack cs inj = dfs cs [] := by funext a; simp [greedyBacktrack, hne]
  rcases greedy_char (by rw [hbt]; exact hd) (by rw [hbt]; exact hcl) hd (Nat.zero_le _) hi' e with ⟨h1, _⟩ | ⟨k, _, _, _, _, hk⟩
  · exact absurd (inClass_zero _ _ _) h1
  · rcases hk with ⟨_, _, _, _, h4, _⟩ | ⟨hv, _⟩
    · simp [ha] at h4
    · obtain ⟨r, hr1, hr2, hr3⟩ := verdict_some hv
      have := hcl _ _ (by simp only; omega) hr1 (by rw [hr2, ha])
      rw [hr3] at this
      simpa [hi'] using this

theorem lazyLoop_rejects {cx : Ctx} {m : K} {cs : List M} {inj : List K} {b : Int} : ∀ (n : Nat) (st : St) (f : Bool) (st' : St),
    lazyLoop cx m cs inj b n st = some (f, st') → st'.accepted = false →
    (f = true ∧ st'.pos = b) ∨ (f = false ∧ st.accepted = false ∧ st'.pos = st.pos) := by
  intro n
  induction n with
  | zero =>
    intro st f st' e ha
    simp only [lazyLoop, Option.some.injEq, Prod.mk.injEq] at e
    obtain ⟨rfl, rfl⟩ := e
    right; exact ⟨rfl, ha, rfl⟩
  | succ n ih =>
    intro st f st' e ha
    simp only [lazyLoop] at e
    split at e
    · split at e
      · split at e
        · simp at e
        · split at e
          · rename_i hacc
            simp only [Option.some.injEq, Prod.mk.injEq] at e
            obtain ⟨rfl, rfl⟩ := e
            simp [hacc] at ha
          · split at e
            · simp at e
            · split at e
              · rename_i hacc
                rcases ih _ _ _ e ha with h | ⟨_, h, _⟩
                · exact Or.inl h
                · simp [hacc] at h
              · simp only [Option.some.injEq, Prod.mk.injEq] at e
                obtain ⟨rfl, rfl⟩ := e
                left; exact ⟨rfl, rfl⟩
      · split at e
        · simp at e
        · split at e
          · rename_i hacc
            simp only [Option.some.injEq, Prod.mk.injEq] at e
            obtain ⟨rfl, rfl⟩ := e
            simp [hacc] at ha
          · split at e
            · simp at e
            · split at e
              · rename_i hacc
                rcases ih _ _ _ e ha with h | ⟨_, h, _⟩
                · exact Or.inl h
                · simp [hacc] at h
              · simp only [Option.some.injEq, Prod.mk.injEq] at e
                obtain ⟨rfl, rfl⟩ := e
                left; exact ⟨rfl, rfl⟩
    · simp only [Option.some.injEq, Prod.mk.injEq] at e
      obtain ⟨rfl, rfl⟩ := e
      right; exact ⟨rfl, ha, rfl⟩

theorem repLoop_acc {m : K} : ∀ (n : Nat) (st st' : St), repLoop m n st = some (true, st') →
    (n = 0 ∧ st' = st) ∨ st'.accepted = true := by
  intro n
  induction n with
  | zero => intro st st' e; simp only [repLoop, Option.some.injEq, Prod.mk.injEq] at e; exact Or.inl ⟨rfl, e.2.symm⟩
  | succ n ih =>
    intro st st' e
    simp only [repLoop] at e
    split at e
    · simp at e
    · rename_i st1 h1
      split at e
      · rename_i hacc
        rcases ih _ _ e with ⟨_, h⟩ | h
        · right; rw [h]; exact hacc
        · right; exact h
      · simp at e

theorem clean_lazy_total {cx : Ctx} {m : K} {lo hi : Nat} {cs : List M} {inj : List K} (hd : Total (dfs cs [])) (hc : Clean (dfs cs []))
    (h : lo = 0 ∨ (lo = 1 ∧ Clean m)) : Clean (lazyMatch cx m lo hi cs inj) := by
  intro st st' h0 e ha
  simp only [lazyMatch] at e
  split at e
  · simp at e
  · rename_i st1 h1
    simp only [Option.some.injEq] at e; subst e
    rcases h with rfl | ⟨rfl, hm⟩
    · simp [repLoop] at h1
    · exact (repLoop_one hm (Or.inr rfl) h0 h1).2
  · rename_i st1 h1
    split at e
    · simp at e
    · rename_i h2
      simp only [Option.some.injEq] at e; subst e
      rcases lazyLoop_rejects _ _ _ _ h2 ha with ⟨_, h⟩ | ⟨h, _⟩
      · exact h
      · simp at h
    · rename_i st2 h2
      cases hf : st2.accepted with
      | true =>
        have := hd _ _ e hf
        simp [ha] at this
      | false =>
        rcases lazyLoop_rejects _ _ _ _ h2 hf with ⟨h, _⟩ | ⟨_, h, h'⟩
        · simp at h
        · rcases repLoop_acc _ _ _ h1 with ⟨_, e1⟩ | h''
          · subst e1
            have := hc _ _ (by rw [h']; exact h0) e ha
            rw [this, h']
          · simp [h] at h''

theorem possLoop_fail {m : K} (hm : Clean m) {lo : Nat} : ∀ (n i : Nat) (last : Int) (st : St) (st' : St), lo ≤ i + 1 → 0 ≤ st.pos →
    possLoop m lo n i last st = some (false, st') → st'.pos = st.pos ∧ i < lo := by
  intro n
  induction n with
  | zero => intro i last st st' _ _ e; simp [possLoop] at e
  | succ n ih =>
    intro i last st st' hlo h0 e
    simp only [possLoop] at e
    split at e
    · simp at e
    · rename_i st1 h1
      split at e
      · -- after the first repetition no failure is left
        exfalso
        exact absurd ((possLoop_no_fail (m := m) (lo := lo) n (i + 1) st1.pos st1 st' (by omega)) e) (by simp)
      · rename_i hr
        split at e
        · rename_i hil
          simp only [Option.some.injEq, Prod.mk.injEq] at e
          obtain ⟨-, rfl⟩ := e
          exact ⟨hm st st1 h0 h1 (by simpa using hr), hil⟩
        · simp at e
theorem clean_poss_total {m : M} {lo hi : Nat} {cs : List M} {inj : List K} (hd : Total (dfs cs [])) (hc : Clean (dfs cs []))
    (h : lo = 0 ∨ (lo = 1 ∧ Clean (m inj))) : Clean (possessiveMatch m lo hi cs inj) := by
  intro st st' h0 e ha
  simp only [possessiveMatch] at e
  split at e
  · simp at e
  · rename_i h1
    simp only [Option.some.injEq] at e; subst e
    rcases h with rfl | ⟨rfl, hm⟩
    · exact (possLoop_no_fail _ _ _ _ _ (Nat.zero_le _) h1).elim
    · exact (possLoop_fail hm _ _ _ _ _ (by omega) h0 h1).1
  · rename_i st1 h1
    cases hf : st1.accepted with
    | true =>
      have := hd _ _ e hf
      simp [ha] at this
    | false =>
      rcases possLoop_acc _ _ _ _ _ h1 with h | ⟨_, h⟩
      · simp [hf] at h
      · have := hc _ _ (by rw [h]; exact h0) e ha
        rw [this, h]

theorem clean_repeated_zero {m : K} {cs : List M} {inj : List K} (h : Clean (dfs cs [])) : Clean (repeatedMatch m 0 cs inj) := by
  intro st st' h0 e ha
  simp only [repeatedMatch, repLoop] at e
  exact h st st' h0 e ha

theorem clean_repeated_one {m : K} {cs : List M} {inj : List K} (hd : Total (dfs cs [])) (h : Clean m) : Clean (repeatedMatch m 1 cs inj) := by
  intro st st' h0 e ha
  simp only [repeatedMatch] at e
  split at e
  · simp at e
  · rename_i h1
    simp only [Option.some.injEq] at e; subst e
    exact (repLoop_one h (Or.inr rfl) h0 h1).2
  · rename_i h1
    rcases repLoop_acc _ _ _ h1 with ⟨h, _⟩ | h
    · simp at h
    · have := hd _ _ e h
      simp [ha] at this

theorem clean_group_total {m : M} {idx : Nat} {cs : List M} {inj : List K} (hd : Total (dfs cs (cs.map (fun c => c []) ++ inj)))
    (h : Clean (m (cs.map (fun c => c [])))) : Clean (groupMatch m idx cs inj) := by
  intro st st' h0 e ha
  simp only [groupMatch] at e
  split at e
  · simp at e
  · rename_i st1 h1
    split at e
    · rename_i hacc
      split at e
      · have := hd _ _ e hacc
        simp [ha] at this
      · simp at e
    · simp only [Option.some.injEq] at e; subst e
      exact h st _ h0 h1 ha

mutual
/-- A clean tree restores the position when it fails, whatever is injected. -/
theorem run_clean (cx : Ctx) : ∀ (t : Node), clean t = true → ∀ inj, Clean (run cx t inj)
  | .exact s d, _, inj => by
    simp only [run]
    refine clean_guarded ?_
    intro st st' _ e ha
    exact clean_exactLoop s _ _ rfl e ha
  | .range a b d, _, inj => by simp only [run]; exact clean_charStep
  | .word, _, inj => by simp only [run]; exact clean_charStep
  | .any, _, inj => by simp only [run]; exact clean_charStep
  | .bos, _, inj => by
    intro st st' _ e _
    simp only [run, bosMatch] at e
    split at e <;> (simp only [Option.some.injEq] at e; rw [← e])
  | .eol, _, inj => by
    intro st st' _ e ha
    simp only [run, eolMatch] at e
    split at e
    · simp only [Option.some.injEq] at e; rw [← e]
    · split at e
      · simp at e
      · split at e
        · simp only [Option.some.injEq] at e; subst e; simp at ha
        · simp only [Option.some.injEq] at e; rw [← e]
  | .space, h, _ => by simp [clean] at h
  | .negated _, h, _ => by simp [clean] at h
  | .simple m cs, h, inj => by
    simp only [clean] at h
    simp only [run]
    exact clean_simple (run_clean cx m h [])
  | .alt cs, h, inj => by
    simp only [clean] at h
    simp only [run]
    exact clean_dfs _ _ (runs_clean cx cs h)
  | .greedy m lo hi cs, h, inj => by
    simp only [clean, Bool.and_eq_true, Bool.or_eq_true, decide_eq_true_eq, Bool.not_eq_true'] at h
    rw [run_greedy_loop cx cs h.1]
    rcases h.2 with ⟨h1, h2⟩ | ⟨⟨rfl, h3⟩, h4⟩
    · refine clean_greedy_total (runs_total cx cs false h1 [] (fun _ => rfl)) ?_
      rcases h2 with h2 | ⟨h2, h3⟩
      · exact Or.inl h2
      · exact Or.inr ⟨h2, run_clean cx m h3 []⟩
    · by_cases hne : cs = []
      · subst hne; exact clean_greedy_total (runs_total cx [] false rfl [] (fun _ => rfl)) (Or.inl rfl)
      · have e1 : run cx m [] = charStep cx (testOf m) := funext (run_single cx m h3 [])
        rw [e1]
        have : (runs cx cs).isEmpty = false := by rw [runs_isEmpty]; simpa using hne
        exact clean_greedy_rest this (rest_dfs cx cs [] (by simp)) (clean_dfs _ _ (runs_clean cx cs h4))
  | .lazy m lo hi cs, h, inj => by
    simp only [clean, Bool.and_eq_true, Bool.or_eq_true, decide_eq_true_eq] at h
    obtain ⟨⟨h1, h4⟩, h2⟩ := h
    simp only [run]
    refine clean_lazy_total (runs_total cx cs false h1 [] (fun _ => rfl)) (clean_dfs _ _ (runs_clean cx cs h4)) ?_
    rcases h2 with h2 | ⟨h2, h3⟩
    · exact Or.inl h2
    · exact Or.inr ⟨h2, run_clean cx m h3 []⟩
  | .possessive m lo hi cs, h, inj => by
    simp only [clean, Bool.and_eq_true, Bool.or_eq_true, decide_eq_true_eq] at h
    obtain ⟨⟨h1, h4⟩, h2⟩ := h
    simp only [run]
    refine clean_poss_total (runs_total cx cs false h1 [] (fun _ => rfl)) (clean_dfs _ _ (runs_clean cx cs h4)) ?_
    rcases h2 with h2 | ⟨h2, h3⟩
    · exact Or.inl h2
    · exact Or.inr ⟨h2, run_clean cx m h3 inj⟩
  | .repeated m n cs, h, inj => by
    simp only [clean, Bool.and_eq_true, Bool.or_eq_true, decide_eq_true_eq] at h
    simp only [run]
    rcases h with ⟨rfl, h2⟩ | ⟨⟨rfl, h2⟩, h3⟩
    · exact clean_repeated_zero (clean_dfs _ _ (runs_clean cx cs h2))
    · exact clean_repeated_one (runs_total cx cs false h2 [] (fun _ => rfl)) (run_clean cx m h3 [])
  | .group m idx cs, h, inj => by
    simp only [clean, Bool.and_eq_true] at h
    simp only [run]
    exact clean_group_total (runs_total cx cs true h.1 _ (by simp)) (run_clean cx m h.2 _)
/-- The same for lists. -/
theorem runs_clean (cx : Ctx) : ∀ (cs : List Node), cleans cs = true → ∀ f ∈ runs cx cs, ∀ inj, Clean (f inj)
  | [], _, f, hf, _ => by simp [runs] at hf
  | c :: cs, h, f, hf, inj => by
    simp only [cleans, Bool.and_eq_true] at h
    simp only [runs, List.mem_cons] at hf
    rcases hf with rfl | hf
    · exact run_clean cx c h.1 inj
    · exact runs_clean cx cs h.2 f hf inj
end

/-! ## the flag a match starts with -/

mutual
/-- Trees whose `match` does not look at the flag it is called with. -/
def flagFree : Node → Bool
  | .exact .. | .range .. | .word | .any | .bos | .eol | .space => true
  | .negated m => flagFree m
  | .simple m _ => flagFree m
  | .alt cs => flagFreeHead cs
  | .greedy m _ _ _ => flagFree m
  | .lazy m lo _ cs => flagFree m && (decide (0 < lo) || flagFreeHead cs)
  | .possessive m _ hi cs => flagFree m && (decide (0 < hi) || flagFreeHead cs)
  | .repeated m n cs => flagFree m && (decide (0 < n) || flagFreeHead cs)
  | .group m _ _ => flagFree m
/-- The first of a non-empty list. -/
def flagFreeHead : List Node → Bool
  | [] => false
  | c :: _ => flagFree c
end

theorem ff_dfs {f : M} {fs : List M} {inj : List K} (h : FlagFree (f inj)) : FlagFree (dfs (f :: fs) inj) := by
  intro st b
  cases fs with
  | nil => simp only [dfs]; exact h st b
  | cons g gs => simp only [dfs, h st b]

theorem ff_repLoop {m : K} (h : FlagFree m) {n : Nat} (hn : 0 < n) (st : St) (b : Bool) :
    repLoop m n { st with accepted := b } = repLoop m n st := by
  cases n with
  | zero => omega
  | succ n => simp only [repLoop, h st b]

theorem ff_growLoop {m : K} (h : FlagFree m) {n : Nat} (hn : 0 < n) (k : Nat) (st : St) (b : Bool) :
    growLoop m n k { st with accepted := b } = growLoop m n k st := by
  cases n with
  | zero => omega
  | succ n => simp only [growLoop, h st b]

theorem ff_greedy {m : K} {lo hi : Nat} {cs : List M} {inj : List K} (h : FlagFree m) : FlagFree (greedyMatch m lo hi cs inj) := by
  intro st b
  simp only [greedyMatch]
  by_cases hlo : 0 < lo
  · rw [ff_repLoop h hlo]
  · have : lo = 0 := by omega
    subst this
    simp only [repLoop, Nat.sub_zero]
    by_cases hh : 0 < hi
    · rw [ff_growLoop h hh]
    · have : hi = 0 := by omega
      subst this
      simp [growLoop, btLoop]

theorem ff_optional {m : K} {w : Nat} {cs : List M} {inj : List K} (h : FlagFree m) : FlagFree (optionalMatch m w cs inj) := by
  intro st b
  simp only [optionalMatch, h st b]

theorem ff_lazyLoop {cx : Ctx} {m : K} {cs : List M} {inj : List K} {s : Int} (hne : cs.isEmpty = false) (hd : FlagFree (dfs cs []))
    {n : Nat} (st : St) (b : Bool) :
    ((lazyLoop cx m cs inj s n { st with accepted := b }).map (fun r => (r.1, if r.1 then some r.2 else dfs cs [] r.2))) =
    ((lazyLoop cx m cs inj s n st).map (fun r => (r.1, if r.1 then some r.2 else dfs cs [] r.2))) := by
  cases n with
  | zero => simp [lazyLoop, hd st b]
  | succ n =>
    simp only [lazyLoop, hne, hd st b]
    split
    · simp
    · simp [hd st b]

theorem lazyMatch_eq {cx : Ctx} {m : K} {lo hi : Nat} {cs : List M} {inj : List K} (st : St) : lazyMatch cx m lo hi cs inj st =
    (match repLoop m lo st with
    | none => none
    | some (false, st1) => some st1
    | some (true, st1) =>
      ((lazyLoop cx m cs inj st.pos (hi - lo) st1).map (fun r => (r.1, if r.1 then some r.2 else dfs cs [] r.2))).bind (·.2)) := by
  simp only [lazyMatch]
  split <;> rename_i h <;> simp only [h]
  split <;> rename_i h2 <;> simp [h2]

theorem ff_lazy {cx : Ctx} {m : K} {lo hi : Nat} {cs : List M} {inj : List K} (h : FlagFree m)
    (h2 : 0 < lo ∨ (cs.isEmpty = false ∧ FlagFree (dfs cs []))) : FlagFree (lazyMatch cx m lo hi cs inj) := by
  intro st b
  by_cases hlo : 0 < lo
  · simp only [lazyMatch, ff_repLoop h hlo]
  · have : lo = 0 := by omega
    subst this
    rcases h2 with h2 | ⟨hne, hd⟩
    · omega
    · rw [lazyMatch_eq, lazyMatch_eq]
      simp only [repLoop]
      rw [ff_lazyLoop hne hd]

theorem ff_poss {m : M} {lo hi : Nat} {cs : List M} {inj : List K} (h : FlagFree (m inj))
    (h2 : 0 < hi ∨ FlagFree (dfs cs [])) : FlagFree (possessiveMatch m lo hi cs inj) := by
  intro st b
  simp only [possessiveMatch]
  cases hi with
  | zero =>
    rcases h2 with h2 | h2
    · omega
    · simp only [possLoop]; exact h2 st b
  | succ n => simp only [possLoop, h st b]

theorem ff_repeated {m : K} {n : Nat} {cs : List M} {inj : List K} (h : FlagFree m) (h2 : 0 < n ∨ FlagFree (dfs cs [])) :
    FlagFree (repeatedMatch m n cs inj) := by
  intro st b
  simp only [repeatedMatch]
  by_cases hn : 0 < n
  · rw [ff_repLoop h hn]
  · have : n = 0 := by omega
    subst this
    rcases h2 with h2 | h2
    · omega
    · simp only [repLoop]; exact h2 st b

mutual
/-- A flag-free tree does not look at the flag, whatever is injected. -/
theorem run_flagFree (cx : Ctx) : ∀ (t : Node), flagFree t = true → ∀ inj, FlagFree (run cx t inj)
  | .exact s d, _, inj => by intro st b; simp only [run, guarded, exactMatch]
  | .range a b d, _, inj => by intro st f; simp only [run]; exact charStep_flag f
  | .word, _, inj => by intro st f; simp only [run]; exact charStep_flag f
  | .any, _, inj => by intro st f; simp only [run]; exact charStep_flag f
  | .space, _, inj => by intro st f; simp only [run, guarded, spaceMatch]
  | .bos, _, inj => by intro st f; simp only [run, bosMatch]
  | .eol, _, inj => by intro st f; simp only [run, eolMatch]
  | .negated m, h, inj => by
    simp only [flagFree] at h
    intro st f; simp only [run, negatedMatch, run_flagFree cx m h [] st f]
  | .simple m cs, h, inj => by
    simp only [flagFree] at h
    intro st f; simp only [run, simpleMatch, run_flagFree cx m h [] st f]
  | .alt cs, h, inj => by
    simp only [flagFree] at h
    simp only [run]
    exact runs_flagFree cx cs h inj
  | .greedy m lo hi cs, h, inj => by
    simp only [flagFree] at h
    cases ho : optPath m lo hi with
    | true => rw [run_greedy_opt cx cs ho]; exact ff_optional (run_flagFree cx m h [])
    | false => rw [run_greedy_loop cx cs ho]; exact ff_greedy (run_flagFree cx m h [])
  | .lazy m lo hi cs, h, inj => by
    simp only [flagFree, Bool.and_eq_true, Bool.or_eq_true, decide_eq_true_eq] at h
    simp only [run]
    refine ff_lazy (run_flagFree cx m h.1 []) ?_
    rcases h.2 with h2 | h2
    · exact Or.inl h2
    · refine Or.inr ⟨?_, runs_flagFree cx cs h2 []⟩
      rw [runs_isEmpty]; cases cs <;> simp [flagFreeHead] at h2 ⊢
  | .possessive m lo hi cs, h, inj => by
    simp only [flagFree, Bool.and_eq_true, Bool.or_eq_true, decide_eq_true_eq] at h
    simp only [run]
    refine ff_poss (run_flagFree cx m h.1 inj) ?_
    rcases h.2 with h2 | h2
    · exact Or.inl h2
    · exact Or.inr (runs_flagFree cx cs h2 [])
  | .repeated m n cs, h, inj => by
    simp only [flagFree, Bool.and_eq_true, Bool.or_eq_true, decide_eq_true_eq] at h
    simp only [run]
    refine ff_repeated (run_flagFree cx m h.1 []) ?_
    rcases h.2 with h2 | h2
    · exact Or.inl h2
    · exact Or.inr (runs_flagFree cx cs h2 [])
  | .group m idx cs, h, inj => by
    simp only [flagFree] at h
    intro st f; simp only [run, groupMatch, run_flagFree cx m h _ st f]
/-- Children: the first one matters. -/
theorem runs_flagFree (cx : Ctx) : ∀ (cs : List Node), flagFreeHead cs = true → ∀ inj, FlagFree (dfs (runs cx cs) inj)
  | [], h, _ => by simp [flagFreeHead] at h
  | c :: cs, h, inj => by
    simp only [flagFreeHead] at h
    simp only [runs]
    exact ff_dfs (run_flagFree cx c h inj)
end

end ERegex

import Verif.Proofs.Repeat
/-!
# Trees that never reject when they are entered with the flag set
-/
set_option autoImplicit false
namespace ERegex
open Spec

/-- The node takes the first branch of `greedy::match` (`X?` with a fixed width). -/
def optPath (m : Node) (lo hi : Nat) : Bool := lo == 0 && hi == 1 && minSize m == maxSize m

theorem optPath_iff (m : Node) (lo hi : Nat) : optPath m lo hi = true ↔ (lo = 0 ∧ hi = 1 ∧ minSize m = maxSize m) := by
  simp [optPath, and_assoc]

theorem run_greedy_loop (cx : Ctx) {m : Node} {lo hi : Nat} (cs : List Node) (h : optPath m lo hi = false) :
    run cx (.greedy m lo hi cs) = greedyMatch (run cx m []) lo hi (runs cx cs) := by
  have : ¬ (lo = 0 ∧ hi = 1 ∧ minSize m = maxSize m) := by rw [← optPath_iff]; simp [h]
  simp only [run, if_neg this]

theorem run_greedy_opt (cx : Ctx) {m : Node} {lo hi : Nat} (cs : List Node) (h : optPath m lo hi = true) :
    run cx (.greedy m lo hi cs) = optionalMatch (run cx m []) (minSize m) (runs cx cs) := by
  simp only [run, if_pos ((optPath_iff _ _ _).1 h)]

theorem runs_isEmpty (cx : Ctx) (cs : List Node) : (runs cx cs).isEmpty = cs.isEmpty := by
  cases cs <;> simp [runs]

theorem dfs_nil (inj : List K) (st : St) : dfs [] inj st = some st := by simp [dfs]

mutual
/-- Trees that accept whenever they are entered with the flag set (`ib` : functions may be injected). -/
def total (ib : Bool) : Node → Bool
  | .simple m cs => total (ib && cs.isEmpty) m && totals ib cs
  | .alt cs => !cs.isEmpty && totals ib cs
  | .greedy _ lo hi cs => decide (lo = 0) && decide (hi ≠ 1) && totals false cs
  | .lazy _ lo _ cs => decide (lo = 0) && (!cs.isEmpty || !ib) && totals false cs
  | .possessive _ lo _ cs => decide (lo = 0) && totals false cs
  | .repeated _ n cs => decide (n = 0) && totals false cs
  | .group m _ cs => total (!cs.isEmpty) m && totals (ib || !cs.isEmpty) cs
  | _ => false
/-- Nothing, or the first alternative accepts. -/
def totals (ib : Bool) : List Node → Bool
  | [] => true
  | c :: _ => total ib c
end

/-- Accepts when entered with the flag set. -/
def Total (k : K) : Prop := ∀ st st', k st = some st' → st.accepted = true → st'.accepted = true

theorem btLoop_acc {bt m : K} {b : Int} : ∀ (n : Nat) (st st' : St), btLoop bt m b n st = some (true, st') → st'.accepted = true := by
  intro n
  induction n with
  | zero => intro st st' e; simp [btLoop] at e
  | succ n ih =>
    intro st st' e
    simp only [btLoop] at e
    split at e
    · simp at e
    · split at e
      · rename_i h
        simp only [Option.some.injEq, Prod.mk.injEq] at e
        obtain ⟨-, rfl⟩ := e
        exact h
      · split at e
        · simp at e
        · exact ih _ _ e

theorem possLoop_acc {m : K} {lo : Nat} : ∀ (n i : Nat) (last : Int) (st : St) (st' : St),
    possLoop m lo n i last st = some (true, st') → st'.accepted = true ∨ (st'.accepted = st.accepted ∧ st'.pos = st.pos) := by
  intro n
  induction n with
  | zero =>
    intro i last st st' e
    simp only [possLoop, Option.some.injEq, Prod.mk.injEq] at e
    obtain ⟨-, rfl⟩ := e
    exact Or.inr ⟨rfl, rfl⟩
  | succ n ih =>
    intro i last st st' e
    simp only [possLoop] at e
    split at e
    · simp at e
    · split at e
      · rename_i hacc
        rcases ih _ _ _ _ e with h | ⟨h, _⟩
        · exact Or.inl h
        · left; rw [h]; exact hacc
      · split at e
        · simp at e
        · simp only [Option.some.injEq, Prod.mk.injEq] at e
          obtain ⟨-, rfl⟩ := e
          exact Or.inl rfl

theorem possLoop_no_fail {m : K} {lo : Nat} : ∀ (n i : Nat) (last : Int) (st : St) (st' : St), lo ≤ i →
    possLoop m lo n i last st = some (false, st') → False := by
  intro n
  induction n with
  | zero => intro i last st st' _ e; simp [possLoop] at e
  | succ n ih =>
    intro i last st st' hlo e
    simp only [possLoop] at e
    split at e
    · simp at e
    · split at e
      · exact ih (i + 1) _ _ st' (by omega) e
      · rw [if_neg (by omega)] at e; simp at e

theorem dfs_total {f : M} {fs : List M} {inj : List K} (h : Total (f inj)) : Total (dfs (f :: fs) inj) := by
  intro st st' e ha
  cases fs with
  | nil => exact h st st' (by simpa [dfs] using e) ha
  | cons g gs =>
    simp only [dfs] at e
    split at e
    · simp at e
    · rename_i st1 h1
      have := h st st1 h1 ha
      rw [if_pos this] at e
      simp only [Option.some.injEq] at e
      subst e; exact this

theorem simple_total {m : K} {cs : List M} {inj : List K} (hm : Total m) (hd : Total (dfs cs inj)) : Total (simpleMatch m cs inj) := by
  intro st st' e ha
  simp only [simpleMatch] at e
  split at e
  · simp at e
  · rename_i st1 h1
    have h2 := hm st st1 h1 ha
    rw [if_pos h2] at e
    split at e
    · simp at e
    · rename_i st2 h3
      have h4 := hd st1 st2 h3 h2
      rw [if_pos h4] at e
      simp only [Option.some.injEq] at e; subst e; exact h4

theorem greedy_total {m : K} {hi : Nat} {cs : List M} {inj : List K} (hd : Total (dfs cs [])) : Total (greedyMatch m 0 hi cs inj) := by
  intro st st' e _
  simp only [greedyMatch, repLoop] at e
  split at e
  · simp at e
  · split at e
    · simp at e
    · rename_i h3
      simp only [Option.some.injEq] at e; subst e
      exact btLoop_acc _ _ _ h3
    · exact hd _ _ e rfl

theorem lazyLoop_total {cx : Ctx} {m : K} {cs : List M} {inj : List K} {b : Int} (hd : Total (dfs cs [])) (hne : cs.isEmpty = true → inj = []) :
    ∀ (n : Nat) (st : St) (f : Bool) (st' : St), lazyLoop cx m cs inj b n st = some (f, st') → st.accepted = true → st'.accepted = true := by
  intro n st f st' e ha
  cases n with
  | zero =>
    simp only [lazyLoop, Option.some.injEq, Prod.mk.injEq] at e
    obtain ⟨-, rfl⟩ := e; exact ha
  | succ n =>
    simp only [lazyLoop] at e
    split at e
    · split at e
      · rename_i hc
        rw [hne hc] at e
        simp only [dfsInj, List.map_nil, dfs, ha, if_true, Option.some.injEq, Prod.mk.injEq] at e
        obtain ⟨-, rfl⟩ := e; rfl
      · split at e
        · simp at e
        · rename_i st1 h1
          have := hd st st1 h1 ha
          rw [if_pos this] at e
          simp only [Option.some.injEq, Prod.mk.injEq] at e
          obtain ⟨-, rfl⟩ := e; exact this
    · simp only [Option.some.injEq, Prod.mk.injEq] at e
      obtain ⟨-, rfl⟩ := e; exact ha

theorem lazy_total {cx : Ctx} {m : K} {hi : Nat} {cs : List M} {inj : List K} (hd : Total (dfs cs [])) (hne : cs.isEmpty = true → inj = []) :
    Total (lazyMatch cx m 0 hi cs inj) := by
  intro st st' e ha
  simp only [lazyMatch, repLoop] at e
  split at e
  · simp at e
  · rename_i h2
    simp only [Option.some.injEq] at e; subst e
    exact lazyLoop_total hd hne _ _ _ _ h2 ha
  · rename_i h2
    exact hd _ _ e (lazyLoop_total hd hne _ _ _ _ h2 ha)

theorem poss_total {m : M} {hi : Nat} {cs : List M} {inj : List K} (hd : Total (dfs cs [])) : Total (possessiveMatch m 0 hi cs inj) := by
  intro st st' e ha
  simp only [possessiveMatch] at e
  split at e
  · simp at e
  · rename_i h1
    exact (possLoop_no_fail _ _ _ _ _ (Nat.zero_le _) h1).elim
  · rename_i h1
    refine hd _ _ e ?_
    rcases possLoop_acc _ _ _ _ _ h1 with h | ⟨h, _⟩
    · exact h
    · rw [h, ha]

theorem group_total {m : M} {idx : Nat} {cs : List M} {inj : List K} (hm : Total (m (cs.map (fun c => c [])))) (hd : Total (dfs cs (cs.map (fun c => c []) ++ inj))) :
    Total (groupMatch m idx cs inj) := by
  intro st st' e ha
  simp only [groupMatch] at e
  split at e
  · simp at e
  · rename_i st1 h1
    have h2 := hm st st1 h1 ha
    rw [if_pos h2] at e
    split at e
    · exact hd _ _ e h2
    · simp at e

mutual
/-- A total tree accepts when it is entered with the flag set. -/
theorem run_total (cx : Ctx) : ∀ (t : Node) (ib : Bool), total ib t = true → ∀ inj : List K, (ib = false → inj = []) → Total (run cx t inj)
  | .exact .., _, h, _, _ | .range .., _, h, _, _ | .word, _, h, _, _ | .any, _, h, _, _ | .bos, _, h, _, _ | .eol, _, h, _, _
  | .space, _, h, _, _ | .negated _, _, h, _, _ => by simp [total] at h
  | .simple m cs, ib, h, inj, hi => by
    simp only [total, Bool.and_eq_true] at h
    simp only [run]
    exact simple_total (run_total cx m _ h.1 [] (fun _ => rfl)) (runs_total cx cs ib h.2 inj hi)
  | .alt cs, ib, h, inj, hi => by
    simp only [total, Bool.and_eq_true] at h
    simp only [run]
    exact runs_total cx cs ib h.2 inj hi
  | .greedy m lo hi cs, ib, h, inj, _ => by
    simp only [total, Bool.and_eq_true, decide_eq_true_eq] at h
    obtain ⟨⟨rfl, h1⟩, h2⟩ := h
    rw [run_greedy_loop cx cs (by simp [optPath, h1])]
    exact greedy_total (runs_total cx cs false h2 [] (fun _ => rfl))
  | .lazy m lo hi cs, ib, h, inj, hinj => by
    simp only [total, Bool.and_eq_true, decide_eq_true_eq, Bool.or_eq_true, Bool.not_eq_true'] at h
    obtain ⟨⟨rfl, h1⟩, h2⟩ := h
    simp only [run]
    refine lazy_total (runs_total cx cs false h2 [] (fun _ => rfl)) (fun he => ?_)
    rw [runs_isEmpty] at he
    rcases h1 with h1 | h1
    · simp [he] at h1
    · exact hinj h1
  | .possessive m lo hi cs, ib, h, inj, _ => by
    simp only [total, Bool.and_eq_true, decide_eq_true_eq] at h
    obtain ⟨rfl, h2⟩ := h
    simp only [run]
    exact poss_total (runs_total cx cs false h2 [] (fun _ => rfl))
  | .repeated m n cs, ib, h, inj, _ => by
    simp only [total, Bool.and_eq_true, decide_eq_true_eq] at h
    obtain ⟨rfl, h2⟩ := h
    intro st st' e ha
    simp only [run, repeatedMatch, repLoop] at e
    exact runs_total cx cs false h2 [] (fun _ => rfl) _ _ e ha
  | .group m idx cs, ib, h, inj, hinj => by
    simp only [total, Bool.and_eq_true] at h
    simp only [run]
    have hown : cs.isEmpty = true → (runs cx cs).map (fun c => c []) = [] := by
      intro he; simp only [List.isEmpty_iff] at he; subst he; simp [runs]
    refine group_total (run_total cx m _ h.1 _ (fun hb => hown (by simpa using hb))) (runs_total cx cs _ h.2 _ (fun hb => ?_))
    simp only [Bool.or_eq_false_iff, Bool.not_eq_false'] at hb
    rw [hown hb.2, hinj hb.1]; rfl
/-- The same for lists. -/
theorem runs_total (cx : Ctx) : ∀ (cs : List Node) (ib : Bool), totals ib cs = true → ∀ inj : List K, (ib = false → inj = []) → Total (dfs (runs cx cs) inj)
  | [], _, _, inj, _ => by
    intro st st' e ha
    simp only [runs, dfs_nil, Option.some.injEq] at e
    subst e; exact ha
  | c :: cs, ib, h, inj, hi => by
    simp only [totals] at h
    simp only [runs]
    exact dfs_total (run_total cx c ib h inj hi)
end

end ERegex

import Verif.Proofs.Search
import Verif.Proofs.Param
/-!
# Trees whose groups come last

If nothing follows a group, an attempt that fails has not written a capture, and an attempt that succeeds has captured up to where it stopped.
-/
set_option autoImplicit false
namespace ERegex
open Spec

mutual
/-- Every group is the last thing on its path, and is not repeated. -/
def final : Node → Bool
  | .exact .. | .range .. | .word | .any | .bos | .eol | .space => true
  | .negated m => (slots m).isEmpty
  | .simple m [] => final m
  | .simple m (c :: cs) => (slots m).isEmpty && (final c && finals cs)
  | .alt cs => finals cs
  | .greedy m _ _ cs | .lazy m _ _ cs | .possessive m _ _ cs | .repeated m _ cs => (slots m).isEmpty && finals cs
  | .group m _ cs => cs.isEmpty && final m
/-- All of a list. -/
def finals : List Node → Bool
  | [] => true
  | c :: cs => final c && finals cs
end

theorem slots_quiet {cx : Ctx} {t : Node} (h : slots t = []) {st st' : St} (e : run cx t [] st = some st') : st'.groups = st.groups := by
  apply List.ext_getElem?
  intro j
  exact run_groups_frame cx t st st' e j (by simp [h])

/-- Captures are written only by success, and then end where it stopped. -/
def Ends (k : K) : Prop := ∀ st st', k st = some st' → (st'.accepted = false → st'.groups = st.groups) ∧
  (st'.accepted = true → ∀ (j : Nat) (x y : Int), st'.groups[j]? = some (some (x, y)) → st.groups[j]? = some (some (x, y)) ∨ y = st'.pos)

/-- Captures are never written. -/
def Hush (k : K) : Prop := ∀ st st', k st = some st' → st'.groups = st.groups

theorem Hush.ends {k : K} (h : Hush k) : Ends k := fun st st' e => ⟨fun _ => h st st' e, fun _ j x y hj => .inl (by rw [← h st st' e]; exact hj)⟩

theorem ends_same {k : K} (h : Ends k) {a st st' : St} (hg : st.groups = a.groups) (e : k st = some st') :
    (st'.accepted = false → st'.groups = a.groups) ∧
    (st'.accepted = true → ∀ (j : Nat) (x y : Int), st'.groups[j]? = some (some (x, y)) → a.groups[j]? = some (some (x, y)) ∨ y = st'.pos) := by
  rw [← hg]; exact h st st' e

theorem hush_rep {m : K} (hm : Hush m) : ∀ (n : Nat) (st : St) (b : Bool) (st' : St), repLoop m n st = some (b, st') →
    st'.groups = st.groups ∧ (b = false → st'.accepted = false)
  | 0, st, b, st', e => by simp only [repLoop, Option.some.injEq, Prod.mk.injEq] at e; rw [← e.2]; exact ⟨rfl, fun h => by rw [← e.1] at h; cases h⟩
  | n + 1, st, b, st', e => by
    simp only [repLoop] at e
    split at e
    · cases e
    · rename_i s1 e1
      split at e
      · obtain ⟨h1, h2⟩ := hush_rep hm n s1 b st' e
        exact ⟨h1.trans (hm _ _ e1), h2⟩
      · simp only [Option.some.injEq, Prod.mk.injEq] at e
        rename_i ha
        rw [← e.2]; exact ⟨hm _ _ e1, fun _ => by simpa using ha⟩

theorem hush_grow {m : K} (hm : Hush m) : ∀ (n k : Nat) (st : St) (k' : Nat) (st' : St), growLoop m n k st = some (k', st') → st'.groups = st.groups
  | 0, k, st, k', st', e => by simp only [growLoop, Option.some.injEq, Prod.mk.injEq] at e; rw [← e.2]
  | n + 1, k, st, k', st', e => by
    simp only [growLoop] at e
    split at e
    · cases e
    · rename_i s1 e1
      split at e
      · exact (hush_grow hm n _ s1 k' st' e).trans (hm _ _ e1)
      · simp only [Option.some.injEq, Prod.mk.injEq] at e
        rw [← e.2]; exact hm st s1 e1

theorem hush_scan {m : K} (hm : Hush m) : ∀ (n : Nat) (i : Int) (st st' : St), scanBack m n i st = some st' → st'.groups = st.groups
  | 0, i, st, st', e => by simp only [scanBack, Option.some.injEq] at e; rw [← e]
  | n + 1, i, st, st', e => by
    simp only [scanBack] at e
    split at e
    · cases e
    · rename_i s1 e1
      have h1 : s1.groups = st.groups := by have := hm _ _ e1; exact this
      split at e
      · simp only [Option.some.injEq] at e; rw [← e]; exact h1
      · exact (hush_scan hm n _ s1 st' e).trans h1

theorem ends_bt {bt m : K} (hb : Ends bt) (hm : Hush m) (start : Int) : ∀ (n : Nat) (st : St) (b : Bool) (st' : St),
    btLoop bt m start n st = some (b, st') →
    (b = false → st'.groups = st.groups) ∧ (b = true → st'.accepted = true ∧
      ∀ (j : Nat) (x y : Int), st'.groups[j]? = some (some (x, y)) → st.groups[j]? = some (some (x, y)) ∨ y = st'.pos)
  | 0, st, b, st', e => by
    simp only [btLoop, Option.some.injEq, Prod.mk.injEq] at e
    rw [← e.1, ← e.2]; exact ⟨fun _ => rfl, fun h => nomatch h⟩
  | n + 1, st, b, st', e => by
    simp only [btLoop] at e
    split at e
    · cases e
    · rename_i s1 e1
      obtain ⟨h1, h2⟩ := hb _ _ e1
      split at e
      · rename_i ha
        simp only [Option.some.injEq, Prod.mk.injEq] at e
        rw [← e.1, ← e.2]; exact ⟨(fun h => nomatch h), fun _ => ⟨ha, h2 ha⟩⟩
      · rename_i ha
        split at e
        · cases e
        · rename_i s2 e2
          have h3 := (hush_scan hm _ _ _ _ e2).trans (h1 (by simpa using ha))
          have := ends_bt hb hm start n s2 b st' e
          rw [h3] at this; exact this

theorem ends_dfs : ∀ (fs : List M), (∀ f ∈ fs, Ends (f [])) → Ends (dfs fs [])
  | [], _ => fun st st' e => by simp only [dfs, Option.some.injEq] at e; subst e; exact ⟨fun _ => rfl, fun _ j x y h => .inl h⟩
  | [f], h => h f (by simp)
  | f :: g :: fs, h => fun st st' e => by
    simp only [dfs] at e
    split at e
    · cases e
    · rename_i s1 e1
      obtain ⟨h1, h2⟩ := h f (by simp) _ _ e1
      split at e
      · rename_i ha
        simp only [Option.some.injEq] at e; subst e
        exact ⟨fun h => (by rw [ha] at h; cases h), fun _ => h2 ha⟩
      · rename_i ha
        exact ends_same (ends_dfs (g :: fs) (fun f hf => h f (by simp at hf; simp [hf]))) (by exact h1 (by simpa using ha)) e

theorem ends_back {cs : List M} (h : Ends (dfs cs [])) : Ends (greedyBacktrack cs []) := by
  intro st st' e
  unfold greedyBacktrack at e
  split at e
  · simp only [dfsInj, List.map_nil, dfs, Option.some.injEq] at e
    subst e; exact ⟨fun _ => rfl, fun _ j x y h => .inl h⟩
  · exact h _ _ e

theorem ends_lazyLoop {cx : Ctx} {m : K} {cs : List M} (hm : Hush m) (hc : Ends (dfs cs [])) (start : Int) : ∀ (n : Nat) (st : St) (b : Bool) (st' : St),
    lazyLoop cx m cs [] start n st = some (b, st') →
    (b = false → st'.groups = st.groups) ∧ (b = true → (st'.accepted = false → st'.groups = st.groups) ∧ (st'.accepted = true →
      ∀ (j : Nat) (x y : Int), st'.groups[j]? = some (some (x, y)) → st.groups[j]? = some (some (x, y)) ∨ y = st'.pos))
  | 0, st, b, st', e => by
    simp only [lazyLoop, Option.some.injEq, Prod.mk.injEq] at e
    rw [← e.1, ← e.2]; exact ⟨fun _ => rfl, fun h => nomatch h⟩
  | n + 1, st, b, st', e => by
    have step : ∀ s1 : St, s1.groups = st.groups → (match m s1 with
        | none => none
        | some st2 => if st2.accepted then lazyLoop cx m cs [] start n st2 else some (true, { st2 with pos := start })) = some (b, st') →
        (b = false → st'.groups = st.groups) ∧ (b = true → (st'.accepted = false → st'.groups = st.groups) ∧ (st'.accepted = true →
          ∀ (j : Nat) (x y : Int), st'.groups[j]? = some (some (x, y)) → st.groups[j]? = some (some (x, y)) ∨ y = st'.pos)) := by
      intro s1 hs1 e
      split at e
      · cases e
      · rename_i s2 e2
        have h2 := (hm _ _ e2).trans hs1
        split at e
        · have := ends_lazyLoop (cx := cx) hm hc start n s2 b st' e
          rw [h2] at this; exact this
        · rename_i ha
          simp only [Option.some.injEq, Prod.mk.injEq] at e
          rw [← e.1, ← e.2]
          exact ⟨(fun h => nomatch h), fun _ => ⟨fun _ => h2, fun h => absurd h ha⟩⟩
    simp only [lazyLoop] at e
    split at e
    · split at e
      · simp only [dfsInj, List.map_nil, dfs] at e
        split at e
        · simp only [Option.some.injEq, Prod.mk.injEq] at e
          rw [← e.1, ← e.2]; exact ⟨fun _ => rfl, fun h => nomatch h⟩
        · exact step _ (by simp) e
      · split at e
        · cases e
        · rename_i s1 e1
          obtain ⟨h1, h2⟩ := hc _ _ e1
          split at e
          · rename_i ha
            simp only [Option.some.injEq, Prod.mk.injEq] at e
            rw [← e.1, ← e.2]; exact ⟨(fun h => nomatch h), fun _ => ⟨h1, h2⟩⟩
          · rename_i ha
            exact step s1 (by exact h1 (by simpa using ha)) e
    · simp only [Option.some.injEq, Prod.mk.injEq] at e
      rw [← e.1, ← e.2]; exact ⟨fun _ => rfl, fun h => nomatch h⟩

theorem hush_poss {m : K} (hm : Hush m) (lo : Nat) : ∀ (n i : Nat) (last : Int) (st : St) (b : Bool) (st' : St),
    possLoop m lo n i last st = some (b, st') → st'.groups = st.groups ∧ (b = false → st'.accepted = false)
  | 0, i, last, st, b, st', e => by
    simp only [possLoop, Option.some.injEq, Prod.mk.injEq] at e
    rw [← e.2, ← e.1]; exact ⟨rfl, fun h => by cases h⟩
  | n + 1, i, last, st, b, st', e => by
    simp only [possLoop] at e
    split at e
    · cases e
    · rename_i s1 e1
      have h1 := hm _ _ e1
      split at e
      · obtain ⟨h2, h3⟩ := hush_poss hm lo n _ _ s1 b st' e
        exact ⟨h2.trans h1, h3⟩
      · rename_i ha
        split at e
        · simp only [Option.some.injEq, Prod.mk.injEq] at e
          rw [← e.2]; exact ⟨h1, fun _ => by simpa using ha⟩
        · simp only [Option.some.injEq, Prod.mk.injEq] at e
          rw [← e.2, ← e.1]; exact ⟨h1, fun h => by cases h⟩

mutual
theorem run_ends (cx : Ctx) : ∀ t, final t = true → Ends (run cx t [])
  | .exact .., _ => fun st st' e => Hush.ends (k := run cx _ []) (fun _ _ e => slots_quiet rfl e) st st' e
  | .range .., _ => fun st st' e => Hush.ends (k := run cx _ []) (fun _ _ e => slots_quiet rfl e) st st' e
  | .word, _ | .any, _ | .bos, _ | .eol, _ | .space, _ => fun st st' e => Hush.ends (k := run cx _ []) (fun _ _ e => slots_quiet rfl e) st st' e
  | .negated m, h => by
    refine Hush.ends (fun _ _ e => slots_quiet ?_ e)
    simpa [final, slots] using h
  | .simple m [], h => by
    have hm := run_ends cx m (by simpa [final] using h)
    intro st st' e
    simp only [run, simpleMatch, runs, dfs] at e
    split at e
    · cases e
    · rename_i s1 e1
      split at e
      · simp only [Option.some.injEq] at e; subst e; exact hm _ _ e1
      · simp only [Option.some.injEq] at e; subst e; exact hm _ _ e1
  | .simple m (c :: cs), h => by
    simp only [final, Bool.and_eq_true, List.isEmpty_iff] at h
    have hm : Hush (run cx m []) := fun _ _ e => slots_quiet h.1 e
    have hc : Ends (dfs (runs cx (c :: cs)) []) := ends_dfs _ (by
      intro f hf
      simp only [runs, List.mem_cons] at hf
      rcases hf with rfl | hf
      · exact run_ends cx c h.2.1
      · exact runs_ends cx cs h.2.2 f hf)
    intro st st' e
    simp only [run, simpleMatch] at e
    split at e
    · cases e
    · rename_i s1 e1
      have h1 := hm _ _ e1
      split at e
      · split at e
        · cases e
        · rename_i s2 e2
          have h2 := ends_same hc h1 e2
          split at e
          · simp only [Option.some.injEq] at e; subst e; exact h2
          · rename_i ha
            simp only [Option.some.injEq] at e; subst e
            exact ⟨fun _ => h2.1 (by simpa using ha), fun h => absurd h ha⟩
      · rename_i ha
        simp only [Option.some.injEq] at e; subst e
        exact ⟨fun _ => h1, fun h => absurd h ha⟩
  | .alt cs, h => by
    simp only [final] at h
    simp only [run]
    exact ends_dfs _ (runs_ends cx cs h)
  | .greedy m lo hi cs, h => by
    simp only [final, Bool.and_eq_true, List.isEmpty_iff] at h
    have hm : Hush (run cx m []) := fun _ _ e => slots_quiet h.1 e
    have hc : Ends (dfs (runs cx cs) []) := ends_dfs _ (runs_ends cx cs h.2)
    have hb := ends_back hc
    simp only [run]
    split
    · intro st st' e
      simp only [optionalMatch] at e
      split at e
      · cases e
      · rename_i s1 e1
        have h1 := hm _ _ e1
        split at e
        · cases e
        · rename_i s2 e2
          have h2 := ends_same hb h1 e2
          split at e
          · rename_i ha
            simp only [Bool.and_eq_true] at ha
            exact ends_same hb (by exact h2.1 (by simpa using ha.1)) e
          · simp only [Option.some.injEq] at e; subst e; exact h2
    · intro st st' e
      simp only [greedyMatch] at e
      split at e
      · cases e
      · rename_i s1 e1
        simp only [Option.some.injEq] at e; subst e
        obtain ⟨h1, h2⟩ := hush_rep hm _ _ _ _ e1
        exact ⟨fun _ => h1, fun h => by rw [h2 rfl] at h; cases h⟩
      · rename_i s1 e1
        obtain ⟨h1, _⟩ := hush_rep hm _ _ _ _ e1
        split at e
        · cases e
        · rename_i k s2 e2
          have h2 := (hush_grow hm _ _ _ _ _ e2).trans h1
          split at e
          · cases e
          · rename_i s3 e3
            simp only [Option.some.injEq] at e; subst e
            have h3 := (ends_bt hb hm _ _ _ _ _ e3).2 rfl
            rw [h2] at h3
            exact ⟨fun h => (by rw [h3.1] at h; cases h), fun _ => h3.2⟩
          · rename_i s3 e3
            have h3 := (ends_bt hb hm _ _ _ _ _ e3).1 rfl
            exact ends_same hc (by exact h3.trans h2) e
  | .lazy m lo hi cs, h => by
    simp only [final, Bool.and_eq_true, List.isEmpty_iff] at h
    have hm : Hush (run cx m []) := fun _ _ e => slots_quiet h.1 e
    have hc : Ends (dfs (runs cx cs) []) := ends_dfs _ (runs_ends cx cs h.2)
    intro st st' e
    simp only [run, lazyMatch] at e
    split at e
    · cases e
    · rename_i s1 e1
      simp only [Option.some.injEq] at e; subst e
      obtain ⟨h1, h2⟩ := hush_rep hm _ _ _ _ e1
      exact ⟨fun _ => h1, fun h => by rw [h2 rfl] at h; cases h⟩
    · rename_i s1 e1
      obtain ⟨h1, _⟩ := hush_rep hm _ _ _ _ e1
      split at e
      · cases e
      · rename_i s2 e2
        simp only [Option.some.injEq] at e; subst e
        have h2 := (ends_lazyLoop (cx := cx) hm hc _ _ _ _ _ e2).2 rfl
        rw [h1] at h2; exact h2
      · rename_i s2 e2
        have h2 := (ends_lazyLoop (cx := cx) hm hc _ _ _ _ _ e2).1 rfl
        exact ends_same hc (h2.trans h1) e
  | .possessive m lo hi cs, h => by
    simp only [final, Bool.and_eq_true, List.isEmpty_iff] at h
    have hm : Hush (run cx m []) := fun _ _ e => slots_quiet h.1 e
    have hc : Ends (dfs (runs cx cs) []) := ends_dfs _ (runs_ends cx cs h.2)
    intro st st' e
    simp only [run, possessiveMatch] at e
    split at e
    · cases e
    · rename_i s1 e1
      simp only [Option.some.injEq] at e; subst e
      obtain ⟨h1, h2⟩ := hush_poss hm _ _ _ _ _ _ _ e1
      exact ⟨fun _ => h1, fun h => by rw [h2 rfl] at h; cases h⟩
    · rename_i s1 e1
      obtain ⟨h1, _⟩ := hush_poss hm _ _ _ _ _ _ _ e1
      exact ends_same hc h1 e
  | .repeated m n cs, h => by
    simp only [final, Bool.and_eq_true, List.isEmpty_iff] at h
    have hm : Hush (run cx m []) := fun _ _ e => slots_quiet h.1 e
    have hc : Ends (dfs (runs cx cs) []) := ends_dfs _ (runs_ends cx cs h.2)
    intro st st' e
    simp only [run, repeatedMatch] at e
    split at e
    · cases e
    · rename_i s1 e1
      simp only [Option.some.injEq] at e; subst e
      obtain ⟨h1, h2⟩ := hush_rep hm _ _ _ _ e1
      exact ⟨fun _ => h1, fun h => by rw [h2 rfl] at h; cases h⟩
    · rename_i s1 e1
      obtain ⟨h1, _⟩ := hush_rep hm _ _ _ _ e1
      exact ends_same hc h1 e
  | .group m idx cs, h => by
    simp only [final, Bool.and_eq_true, List.isEmpty_iff] at h
    obtain ⟨rfl, h⟩ := h
    have hm := run_ends cx m h
    intro st st' e
    simp only [run, groupMatch, runs, List.map_nil, dfs] at e
    split at e
    · cases e
    · rename_i s1 e1
      obtain ⟨h1, h2⟩ := hm _ _ e1
      split at e
      · rename_i ha
        split at e
        · simp only [Option.some.injEq] at e; subst e
          refine ⟨fun h => absurd (h.symm.trans ha) (by simp), fun _ j x y hj => ?_⟩
          rw [List.getElem?_set] at hj
          split at hj
          · simp only [Option.some.injEq, Prod.mk.injEq] at hj; exact .inr hj.2.symm
          · exact h2 ha j x y hj
        · cases e
      · rename_i ha
        simp only [Option.some.injEq] at e; subst e
        exact ⟨fun _ => h1 (by simpa using ha), fun h => absurd h ha⟩
theorem runs_ends (cx : Ctx) : ∀ cs, finals cs = true → ∀ f ∈ runs cx cs, Ends (f [])
  | [], _, f, hf => by simp [runs] at hf
  | c :: cs, h, f, hf => by
    simp only [finals, Bool.and_eq_true] at h
    simp only [runs, List.mem_cons] at hf
    rcases hf with rfl | hf
    · exact run_ends cx c h.1
    · exact runs_ends cx cs h.2 f hf
end

end ERegex

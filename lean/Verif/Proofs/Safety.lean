import Verif.Proofs.Single
import Verif.Proofs.Optimize
import Verif.Model.Result
/-!
# Matching stays inside the query

`safe nul t` is a decidable condition on trees; for trees that satisfy it no match reads outside the query (with `nul`:
outside the query and the NUL after it), the position stays between the start of the match and the end of the query, and
every capture lies inside the query.
-/
set_option autoImplicit false
namespace ERegex
open Spec

mutual
/-- Trees whose matching stays inside the query; `nul` = the query is followed by a NUL byte. -/
def safe (nul : Bool) : Node → Bool
  | .exact s _ => decide (s.length ≤ 1) || (nul && !s.contains 0)
  | .range .. | .space | .word | .any | .bos => true
  | .eol => nul
  | .negated m => single m
  | .simple m cs | .lazy m _ _ cs | .possessive m _ _ cs | .repeated m _ cs | .group m _ cs => safe nul m && safes nul cs
  | .alt cs => safes nul cs
  | .greedy m lo hi cs =>
    safe nul m && safes nul cs && (!(lo == 0 && hi == 1 && minSize m == maxSize m) || decide (minSize m ≤ 1))
/-- All of a list. -/
def safes (nul : Bool) : List Node → Bool
  | [] => true
  | c :: cs => safe nul c && safes nul cs
end

/-- A capture inside `[lo, end of query]`. -/
def ViewIn (cx : Ctx) (lo : Int) (v : Option (Int × Int)) : Prop :=
  ∀ a b, v = some (a, b) → lo ≤ a ∧ a ≤ cx.qend ∧ lo ≤ b ∧ b ≤ cx.qend

/-- Parameters of the invariant: lower bound for captures, start of the match, number of slots, and what may be captured in
each slot. -/
structure Par where
  lo : Int
  s : Int
  n : Nat
  C : Nat → Int → Int → Prop

/-- The invariant of a match attempt. -/
structure Good (cx : Ctx) (P : Par) (st : St) : Prop where
  start : st.start = P.s
  lo : 0 ≤ P.lo ∧ P.lo ≤ P.s
  pos : P.s ≤ st.pos ∧ st.pos ≤ cx.qend
  len : st.groups.length = P.n
  views : ∀ v ∈ st.groups, ViewIn cx P.lo v
  caps : ∀ (i : Nat) (a b : Int), st.groups[i]? = some (some (a, b)) → P.C i a b

/-- Total on the invariant, and keeps it. -/
def GoodK (cx : Ctx) (P : Par) (k : K) : Prop := ∀ st, Good cx P st → ∃ st', k st = some st' ∧ Good cx P st'
/-- The same for nodes with injected children. -/
def GoodM (cx : Ctx) (P : Par) (f : M) : Prop := ∀ inj, (∀ k ∈ inj, GoodK cx P k) → GoodK cx P (f inj)

section
variable {cx : Ctx} {P : Par}

theorem Good.flag {st : St} (h : Good cx P st) (b : Bool) : Good cx P { st with accepted := b } :=
  ⟨h.start, h.lo, h.pos, h.len, h.views, h.caps⟩
theorem Good.move {st : St} (h : Good cx P st) {p : Int} (h1 : P.s ≤ p) (h2 : p ≤ cx.qend) : Good cx P { st with pos := p } :=
  ⟨h.start, h.lo, ⟨h1, h2⟩, h.len, h.views, h.caps⟩
theorem Good.both {st : St} (h : Good cx P st) {p : Int} (b : Bool) (h1 : P.s ≤ p) (h2 : p ≤ cx.qend) :
    Good cx P { st with accepted := b, pos := p } :=
  ⟨h.start, h.lo, ⟨h1, h2⟩, h.len, h.views, h.caps⟩

theorem dfs_good : ∀ (cs : List M) (inj : List K), (∀ f ∈ cs, GoodM cx P f) → (∀ k ∈ inj, GoodK cx P k) →
    GoodK cx P (dfs cs inj) := by
  intro cs
  induction cs with
  | nil => intro inj _ _ st h; exact ⟨st, rfl, h⟩
  | cons f cs ih =>
    intro inj hc hi st h
    obtain ⟨st', e, h'⟩ := hc f (by simp) inj hi st h
    cases cs with
    | nil => exact ⟨st', by simp [dfs, e], h'⟩
    | cons g cs =>
      simp only [dfs, e]
      split
      · exact ⟨st', rfl, h'⟩
      · exact ih [] (fun f hf => hc f (by simp [hf])) (by simp) _ (h'.flag true)

theorem dfsInj_good {inj : List K} (hi : ∀ k ∈ inj, GoodK cx P k) : GoodK cx P (dfsInj inj) := by
  refine dfs_good _ _ ?_ (by simp)
  intro f hf
  simp only [List.mem_map] at hf
  obtain ⟨k, hk, rfl⟩ := hf
  intro _ _
  exact hi k hk

theorem charStep_good (p : Int → Bool) : GoodK cx P (charStep cx p) := by
  intro st h
  by_cases hp : cx.qend ≤ st.pos
  · exact ⟨_, charStep_end hp, h.flag false⟩
  · have h' : st.pos < cx.qend := by omega
    obtain ⟨c, hc, _⟩ := read_some cx st.pos (by have := h.lo; have := h.pos; omega) h'
    refine ⟨_, charStep_read h' hc, ?_⟩
    split
    · exact h.both true (by have := h.pos; omega) (by omega)
    · exact h.flag false

theorem skipStep_good (p : Int → Bool) : GoodK cx P (skipStep cx p) := by
  intro st h
  simp only [skipStep]
  by_cases hp : cx.qend ≤ st.pos
  · exact ⟨_, by simp [hp], h.flag false⟩
  · have h' : st.pos < cx.qend := by omega
    obtain ⟨c, hc, _⟩ := read_some cx st.pos (by have := h.lo; have := h.pos; omega) h'
    have hp' : ¬ (st.pos ≥ cx.qend) := by omega
    refine ⟨_, by rw [if_neg hp', hc], ?_⟩
    exact h.both _ (by have := h.pos; omega) (by omega)

theorem exactLoop_good (hnul : cx.post.head? = some 0) (b : Int) (hb : P.s ≤ b ∧ b ≤ cx.qend) :
    ∀ s : List Int, (0 : Int) ∉ s → GoodK cx P (exactLoop cx b s) := by
  intro s
  induction s with
  | nil => intro _ st h; exact ⟨st, rfl, h⟩
  | cons c s ih =>
    intro h0 st h
    simp only [List.mem_cons, not_or] at h0
    simp only [exactLoop]
    by_cases hp : st.pos = cx.qend
    · rw [hp, read_end, hnul]
      have : c ≠ 0 := fun e => h0.1 e.symm
      simp only [this, ne_eq, not_false_eq_true, if_true]
      exact ⟨_, rfl, h.both false hb.1 hb.2⟩
    · obtain ⟨d, hd, _⟩ := read_some cx st.pos (by have := h.lo; have := h.pos; omega) (by have := h.pos; omega)
      rw [hd]
      simp only
      split
      · exact ⟨_, rfl, h.both false hb.1 hb.2⟩
      · exact ih h0.2 _ (h.move (by have := h.pos; omega) (by have := h.pos; omega))

theorem exact_good {s : List Int} (hnul : cx.post.head? = some 0) (h0 : (0 : Int) ∉ s) :
    GoodK cx P (guarded cx (exactMatch cx s)) := by
  intro st h
  simp only [guarded]
  split
  · exact ⟨_, rfl, h.flag false⟩
  · exact exactLoop_good hnul st.pos h.pos s h0 _ (h.flag true)

theorem exact_good_short {s : List Int} (hs : s.length ≤ 1) : GoodK cx P (guarded cx (exactMatch cx s)) := by
  match s, hs with
  | [], _ =>
    intro st h
    simp only [guarded]
    split
    · exact ⟨_, rfl, h.flag false⟩
    · exact ⟨_, rfl, h.flag true⟩
  | [x], _ =>
    intro st h
    rw [exact_single]
    exact charStep_good _ st h

theorem bos_good : GoodK cx P (bosMatch cx) := by
  intro st h
  simp only [bosMatch]
  split <;> exact ⟨_, rfl, h.flag _⟩

theorem eol_good (hnul : cx.post.head? = some 0) : GoodK cx P (eolMatch cx) := by
  intro st h
  simp only [eolMatch]
  split
  · exact ⟨_, rfl, h.flag _⟩
  · by_cases hp : st.pos = cx.qend
    · rw [hp, read_end, hnul]
      simp only [show ((0 : Int) = 10) = False from by simp, if_false]
      exact ⟨_, rfl, h.both _ (by have := h.pos; omega) (by omega)⟩
    · obtain ⟨d, hd, _⟩ := read_some cx st.pos (by have := h.lo; have := h.pos; omega) (by have := h.pos; omega)
      rw [hd]
      simp only
      split
      · exact ⟨_, rfl, h.both _ (by have := h.pos; omega) (by have := h.pos; omega)⟩
      · exact ⟨_, rfl, h.flag _⟩

theorem simple_good {m : K} {cs : List M} {inj : List K} (hm : GoodK cx P m) (hd : GoodK cx P (dfs cs inj)) :
    GoodK cx P (simpleMatch m cs inj) := by
  intro st h
  obtain ⟨st1, e1, h1⟩ := hm st h
  simp only [simpleMatch, e1]
  split
  · obtain ⟨st2, e2, h2⟩ := hd st1 h1
    simp only [e2]
    split
    · exact ⟨_, rfl, h2⟩
    · exact ⟨_, rfl, h2.move h.pos.1 h.pos.2⟩
  · exact ⟨_, rfl, h1⟩

theorem repLoop_good {m : K} (hm : GoodK cx P m) : ∀ (n : Nat) (st : St), Good cx P st →
    ∃ b st', repLoop m n st = some (b, st') ∧ Good cx P st' := by
  intro n
  induction n with
  | zero => intro st h; exact ⟨true, st, rfl, h⟩
  | succ n ih =>
    intro st h
    obtain ⟨st1, e1, h1⟩ := hm st h
    simp only [repLoop, e1]
    split
    · exact ih st1 h1
    · exact ⟨false, st1, rfl, h1⟩

theorem repeated_good {m : K} {n : Nat} {cs : List M} {inj : List K} (hm : GoodK cx P m) (hd : GoodK cx P (dfs cs [])) :
    GoodK cx P (repeatedMatch m n cs inj) := by
  intro st h
  obtain ⟨b, st1, e1, h1⟩ := repLoop_good hm n st h
  simp only [repeatedMatch, e1]
  cases b with
  | false => exact ⟨_, rfl, h1⟩
  | true => exact hd st1 h1

theorem growLoop_good {m : K} (hm : GoodK cx P m) : ∀ (n k : Nat) (st : St), Good cx P st →
    ∃ b st', growLoop m n k st = some (b, st') ∧ Good cx P st' := by
  intro n
  induction n with
  | zero => intro k st h; exact ⟨k, st, rfl, h⟩
  | succ n ih =>
    intro k st h
    obtain ⟨st1, e1, h1⟩ := hm st h
    simp only [growLoop, e1]
    split
    · exact ih _ st1 h1
    · exact ⟨k, _, rfl, h1.flag true⟩

theorem scanBack_good {m : K} (hm : GoodK cx P m) : ∀ (n : Nat) (it : Int), it ≤ cx.qend → P.s ≤ it - n + 1 →
    GoodK cx P (scanBack m n it) := by
  intro n
  induction n with
  | zero => intro it _ _ st h; exact ⟨st, rfl, h⟩
  | succ n ih =>
    intro it h1 h2 st h
    obtain ⟨st1, e1, h1'⟩ := hm { st with pos := it } (h.move (by omega) h1)
    simp only [scanBack, e1]
    split
    · exact ⟨_, rfl, h1'.move (by omega) h1⟩
    · exact ih (it - 1) (by omega) (by omega) st1 h1'

theorem btLoop_good {bt m : K} (hb : GoodK cx P bt) (hm : GoodK cx P m) (start : Int) (hs : P.s ≤ start) :
    ∀ (n : Nat) (st : St), Good cx P st → ∃ b st', btLoop bt m start n st = some (b, st') ∧ Good cx P st' := by
  intro n
  induction n with
  | zero => intro st h; exact ⟨false, st, rfl, h⟩
  | succ n ih =>
    intro st h
    obtain ⟨st1, e1, h1⟩ := hb st h
    simp only [btLoop, e1]
    split
    · exact ⟨true, st1, rfl, h1⟩
    · by_cases hlt : start ≤ st1.pos
      · obtain ⟨st2, e2, h2⟩ := scanBack_good hm (st1.pos - start).toNat (st1.pos - 1) (by have := h1.pos; omega)
          (by omega) st1 h1
        simp only [e2]
        exact ih st2 h2
      · have : (st1.pos - start).toNat = 0 := by omega
        rw [this]
        simp only [scanBack]
        exact ih st1 h1

theorem backtrack_good {cs : List M} {inj : List K} (hd : GoodK cx P (dfs cs [])) (hi : ∀ k ∈ inj, GoodK cx P k) :
    GoodK cx P (greedyBacktrack cs inj) := by
  intro st h
  simp only [greedyBacktrack]
  split
  · obtain ⟨st1, e1, h1⟩ := dfsInj_good hi st h
    simp only [e1]
    exact ⟨_, rfl, h1.move h.pos.1 h.pos.2⟩
  · exact hd st h

theorem optional_good {m : K} {w : Nat} {cs : List M} {inj : List K} (hw : w ≤ 1) (hm : GoodK cx P m)
    (hd : GoodK cx P (dfs cs [])) (hi : ∀ k ∈ inj, GoodK cx P k) : GoodK cx P (optionalMatch m w cs inj) := by
  intro st h
  obtain ⟨st1, e1, h1⟩ := hm st h
  obtain ⟨st2, e2, h2⟩ := backtrack_good hd hi st1 h1
  simp only [optionalMatch, e1, e2]
  split
  · rename_i hcond
    simp only [Bool.and_eq_true, decide_eq_true_eq] at hcond
    have hlt := hcond.2
    rw [h2.start] at hlt
    exact backtrack_good hd hi _ (h2.move (by omega) (by have := h2.pos; omega))
  · exact ⟨st2, rfl, h2⟩

theorem greedy_good {m : K} {lo hi : Nat} {cs : List M} {inj : List K} (hm : GoodK cx P m) (hd : GoodK cx P (dfs cs []))
    (hi' : ∀ k ∈ inj, GoodK cx P k) : GoodK cx P (greedyMatch m lo hi cs inj) := by
  intro st h
  obtain ⟨b, st1, e1, h1⟩ := repLoop_good hm lo st h
  simp only [greedyMatch, e1]
  cases b with
  | false => exact ⟨_, rfl, h1⟩
  | true =>
    obtain ⟨k, st2, e2, h2⟩ := growLoop_good hm (hi - lo) lo st1 h1
    obtain ⟨b, st3, e3, h3⟩ := btLoop_good (backtrack_good hd hi') hm st1.pos h1.pos.1 (k - lo) st2 h2
    simp only [e2, e3]
    cases b with
    | true => exact ⟨_, rfl, h3⟩
    | false => exact hd _ (h3.flag true)

theorem lazyLoop_good {m : K} {cs : List M} {inj : List K} {start : Int} (hs : P.s ≤ start ∧ start ≤ cx.qend)
    (hm : GoodK cx P m) (hd : GoodK cx P (dfs cs [])) (hi : ∀ k ∈ inj, GoodK cx P k) : ∀ (n : Nat) (st : St), Good cx P st →
    ∃ b st', lazyLoop cx m cs inj start n st = some (b, st') ∧ Good cx P st' := by
  intro n
  induction n with
  | zero => intro st h; exact ⟨false, st, rfl, h⟩
  | succ n ih =>
    intro st h
    simp only [lazyLoop]
    split
    · split
      · obtain ⟨st1, e1, h1⟩ := dfsInj_good hi st h
        simp only [e1]
        split
        · exact ⟨_, _, rfl, h1.move h.pos.1 h.pos.2⟩
        · obtain ⟨st2, e2, h2⟩ := hm { st1 with pos := st.pos } (h1.move h.pos.1 h.pos.2)
          simp only [e2]
          split
          · exact ih st2 h2
          · exact ⟨_, _, rfl, h2.move hs.1 hs.2⟩
      · obtain ⟨st1, e1, h1⟩ := hd st h
        simp only [e1]
        split
        · exact ⟨_, _, rfl, h1⟩
        · obtain ⟨st2, e2, h2⟩ := hm st1 h1
          simp only [e2]
          split
          · exact ih st2 h2
          · exact ⟨_, _, rfl, h2.move hs.1 hs.2⟩
    · exact ⟨_, _, rfl, h⟩

theorem lazy_good {m : K} {lo hi : Nat} {cs : List M} {inj : List K} (hm : GoodK cx P m) (hd : GoodK cx P (dfs cs []))
    (hi' : ∀ k ∈ inj, GoodK cx P k) : GoodK cx P (lazyMatch cx m lo hi cs inj) := by
  intro st h
  obtain ⟨b, st1, e1, h1⟩ := repLoop_good hm lo st h
  simp only [lazyMatch, e1]
  cases b with
  | false => exact ⟨_, rfl, h1⟩
  | true =>
    obtain ⟨b, st2, e2, h2⟩ := lazyLoop_good h.pos hm hd hi' (hi - lo) st1 h1
    simp only [e2]
    cases b with
    | true => exact ⟨_, rfl, h2⟩
    | false => exact hd st2 h2

theorem possLoop_good {m : K} {lo : Nat} (hm : GoodK cx P m) : ∀ (n i : Nat) (last : Int) (st : St), Good cx P st →
    P.s ≤ last → last ≤ cx.qend → ∃ b st', possLoop m lo n i last st = some (b, st') ∧ Good cx P st' := by
  intro n
  induction n with
  | zero => intro i last st h _ _; exact ⟨true, st, rfl, h⟩
  | succ n ih =>
    intro i last st h h1 h2
    obtain ⟨st1, e1, h3⟩ := hm st h
    simp only [possLoop, e1]
    split
    · exact ih _ _ st1 h3 h3.pos.1 h3.pos.2
    · split
      · exact ⟨_, _, rfl, h3⟩
      · exact ⟨_, _, rfl, h3.both true h1 h2⟩

theorem possessive_good {m : M} {lo hi : Nat} {cs : List M} {inj : List K} (hm : GoodK cx P (m inj))
    (hd : GoodK cx P (dfs cs [])) : GoodK cx P (possessiveMatch m lo hi cs inj) := by
  intro st h
  obtain ⟨b, st1, e1, h1⟩ := possLoop_good (lo := lo) hm hi 0 st.pos st h h.pos.1 h.pos.2
  simp only [possessiveMatch, e1]
  cases b with
  | false => exact ⟨_, rfl, h1⟩
  | true => exact hd st1 h1

theorem own_good {cs : List M} (hc : ∀ f ∈ cs, GoodK cx P (f [])) : ∀ k ∈ cs.map (fun c => c []), GoodK cx P k := by
  intro k hk
  simp only [List.mem_map] at hk
  obtain ⟨c, hcm, rfl⟩ := hk
  exact hc c hcm

theorem group_good {m : M} {idx : Nat} {cs : List M} {inj : List K} (hidx : idx < P.n)
    (hm : GoodK cx P (m (cs.map (fun c => c [])))) (hd : GoodK cx P (dfs cs (cs.map (fun c => c []) ++ inj)))
    (hC : ∀ st st', Good cx P st → m (cs.map (fun c => c [])) st = some st' → st'.accepted = true → P.C idx st.pos st'.pos) :
    GoodK cx P (groupMatch m idx cs inj) := by
  intro st h
  obtain ⟨st1, e1, h1⟩ := hm st h
  simp only [groupMatch, e1]
  split
  · rename_i ha
    have hlt : idx < st1.groups.length := by rw [h1.len]; exact hidx
    simp only [hlt, if_true]
    refine hd _ ?_
    refine ⟨h1.start, h1.lo, h1.pos, by simp [h1.len], ?_, ?_⟩
    · intro v hv
      simp only at hv
      rcases List.mem_or_eq_of_mem_set hv with hv | rfl
      · exact h1.views v hv
      · intro a b e
        simp only [Option.some.injEq, Prod.mk.injEq] at e
        obtain ⟨rfl, rfl⟩ := e
        have := h1.lo; have := h1.pos; have := h.pos
        exact ⟨by omega, by omega, by omega, by omega⟩
    · intro i a b hi
      simp only [List.getElem?_set] at hi
      split at hi
      · rename_i hii
        simp only [Option.some.injEq, Prod.mk.injEq] at hi
        obtain ⟨rfl, rfl⟩ := hi
        subst hii
        exact hC st st1 h e1 ha
      · exact h1.caps i a b hi
  · exact ⟨_, rfl, h1⟩

end

mutual
/-- Safe trees keep the invariant. -/
theorem run_good {cx : Ctx} {P : Par} {nul : Bool} (hnul : nul = true → cx.post.head? = some 0) (hC : ∀ i a b, P.C i a b) :
    ∀ t : Node, safe nul t = true → (∀ i ∈ slots t, i < P.n) → GoodM cx P (run cx t)
  | .exact s d, h, _ => by
    intro inj _
    simp only [run]
    simp only [safe, Bool.or_eq_true, decide_eq_true_eq, Bool.and_eq_true] at h
    rcases h with h | ⟨h1, h2⟩
    · exact exact_good_short h
    · exact exact_good (hnul h1) (by simpa using h2)
  | .range .., _, _ => by intro inj _; simp only [run]; exact charStep_good _
  | .word, _, _ => by intro inj _; simp only [run]; exact charStep_good _
  | .any, _, _ => by intro inj _; simp only [run]; exact charStep_good _
  | .space, _, _ => by
    intro inj _ st hst
    rw [run_skipping cx .space rfl]
    exact skipStep_good _ st hst
  | .bos, _, _ => by intro inj _; simp only [run]; exact bos_good
  | .eol, h, _ => by
    intro inj _; simp only [run]
    simp only [safe] at h
    exact eol_good (hnul h)
  | .negated m, h, _ => by
    intro inj _ st hst
    simp only [safe] at h
    rw [run_skipping cx (.negated m) (by simpa [skipping] using h)]
    exact skipStep_good _ st hst
  | .simple m cs, h, hs => by
    simp only [run]; simp only [safe, Bool.and_eq_true] at h; simp only [slots, List.mem_append] at hs
    intro inj hi
    exact simple_good (run_good hnul hC m h.1 (fun i hi => hs i (Or.inl hi)) [] (by simp))
      (dfs_good _ _ (runs_good hnul hC cs h.2 (fun i hi => hs i (Or.inr hi))) hi)
  | .alt cs, h, hs => by
    simp only [run]; simp only [safe] at h; simp only [slots] at hs
    intro inj hi
    exact dfs_good _ _ (runs_good hnul hC cs h hs) hi
  | .greedy m lo hi cs, h, hs => by
    simp only [run]; simp only [safe, Bool.and_eq_true] at h; simp only [slots, List.mem_append] at hs
    intro inj hinj
    split
    · rename_i hcond
      have hw : minSize m ≤ 1 := by
        have := h.2
        simp [hcond.1, hcond.2.1, hcond.2.2] at this
        omega
      exact optional_good hw (run_good hnul hC m h.1.1 (fun i hi => hs i (Or.inl hi)) [] (by simp))
        (dfs_good _ [] (runs_good hnul hC cs h.1.2 (fun i hi => hs i (Or.inr hi))) (by simp)) hinj
    · exact greedy_good (run_good hnul hC m h.1.1 (fun i hi => hs i (Or.inl hi)) [] (by simp))
        (dfs_good _ [] (runs_good hnul hC cs h.1.2 (fun i hi => hs i (Or.inr hi))) (by simp)) hinj
  | .lazy m lo hi cs, h, hs => by
    simp only [run]; simp only [safe, Bool.and_eq_true] at h; simp only [slots, List.mem_append] at hs
    intro inj hinj
    exact lazy_good (run_good hnul hC m h.1 (fun i hi => hs i (Or.inl hi)) [] (by simp))
      (dfs_good _ [] (runs_good hnul hC cs h.2 (fun i hi => hs i (Or.inr hi))) (by simp)) hinj
  | .possessive m lo hi cs, h, hs => by
    simp only [run]; simp only [safe, Bool.and_eq_true] at h; simp only [slots, List.mem_append] at hs
    intro inj hinj
    exact possessive_good (run_good hnul hC m h.1 (fun i hi => hs i (Or.inl hi)) inj hinj)
      (dfs_good _ [] (runs_good hnul hC cs h.2 (fun i hi => hs i (Or.inr hi))) (by simp))
  | .repeated m n cs, h, hs => by
    simp only [run]; simp only [safe, Bool.and_eq_true] at h; simp only [slots, List.mem_append] at hs
    intro inj hinj
    exact repeated_good (run_good hnul hC m h.1 (fun i hi => hs i (Or.inl hi)) [] (by simp))
      (dfs_good _ [] (runs_good hnul hC cs h.2 (fun i hi => hs i (Or.inr hi))) (by simp))
  | .group m idx cs, h, hs => by
    simp only [run]; simp only [safe, Bool.and_eq_true] at h; simp only [slots, List.mem_cons, List.mem_append] at hs
    intro inj hinj
    have hcs := runs_good hnul hC cs h.2 (fun i hi => hs i (Or.inr (Or.inr hi)))
    have hown := own_good (fun f hf => hcs f hf [] (by simp))
    refine group_good (hs idx (Or.inl rfl)) (run_good hnul hC m h.1 (fun i hi => hs i (Or.inr (Or.inl hi))) _ hown)
      (dfs_good _ _ hcs ?_) (fun _ _ _ _ _ => hC _ _ _)
    intro k hk
    rcases List.mem_append.1 hk with hk | hk
    · exact hown k hk
    · exact hinj k hk
theorem runs_good {cx : Ctx} {P : Par} {nul : Bool} (hnul : nul = true → cx.post.head? = some 0) (hC : ∀ i a b, P.C i a b) :
    ∀ cs : List Node, safes nul cs = true → (∀ i ∈ slotss cs, i < P.n) → ∀ f ∈ runs cx cs, GoodM cx P f
  | [], _, _ => by simp [runs]
  | c :: cs, h, hs => by
    simp only [slotss, List.mem_append] at hs
    simp only [safes, Bool.and_eq_true] at h
    intro f hf
    simp only [runs, List.mem_cons] at hf
    rcases hf with rfl | hf
    · exact run_good hnul hC c h.1 (fun i hi => hs i (Or.inl hi))
    · exact runs_good hnul hC cs h.2 (fun i hi => hs i (Or.inr hi)) f hf
end

end ERegex

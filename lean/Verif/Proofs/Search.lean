import Verif.Proofs.Safety
import Verif.Proofs.Memory
import Verif.Proofs.Steps
import Verif.Proofs.Param
/-!
# The search loop and histories of a match result

`Reach cx t st`: `st` is a match result that a program can hold: constructed on the query of `cx`, then advanced by any
number of `next()`.
-/
set_option autoImplicit false
namespace ERegex
open Spec

/-- Results a program can hold: `regex::match(query)` followed by any number of `next()` calls, all of which returned. -/
inductive Reach (cx : Ctx) (t : Node) : St → Prop
  | make {fuel : Nat} {st : St} : construct cx t fuel = .ok st → Reach cx t st
  | next {fuel : Nat} {st st' : St} : Reach cx t st → next cx t fuel st = .ok st' → Reach cx t st'

/-- What the search leaves behind: `from` is where it began, `L` the lower bound of the captures, `n` the number of
slots. -/
structure Found (cx : Ctx) (L frm : Int) (n : Nat) (st : St) : Prop where
  len : st.groups.length = n
  views : ∀ v ∈ st.groups, ViewIn cx L v
  from_le : frm ≤ st.start
  acc : st.accepted = true → st.start < cx.qend ∧ st.start ≤ st.pos ∧ st.pos ≤ cx.qend
  rej : st.accepted = false → cx.qend ≤ st.start ∧ st.start = st.pos ∧ st.pos ≤ cx.qend + 1

/-- The search loop: no undefined behaviour, enough fuel = number of positions left, and the result is inside. -/
theorem nextLoop_good {cx : Ctx} {m : K} {L : Int} {n : Nat} (hL : 0 ≤ L)
    (hm : ∀ s, L ≤ s → GoodK cx ⟨L, s, n, fun _ _ _ => True⟩ m) : ∀ (f : Nat) (st : St), st.start = st.pos → L ≤ st.start →
    st.start ≤ cx.qend + 1 → st.groups.length = n → (∀ v ∈ st.groups, ViewIn cx L v) →
    (∃ st', nextLoop cx m f st = .ok st' ∧ Found cx L st.start n st') ∨
      (nextLoop cx m f st = .timeout ∧ (f : Int) < cx.qend - st.start) := by
  intro f
  induction f with
  | zero =>
    intro st h1 h2 h3 h4 h5
    simp only [nextLoop]
    split
    · right; exact ⟨rfl, by omega⟩
    · left
      refine ⟨_, rfl, ⟨h4, h5, by simp, by simp, ?_⟩⟩
      intro _; simp only; omega
  | succ f ih =>
    intro st h1 h2 h3 h4 h5
    simp only [nextLoop]
    split
    · rename_i hlt
      obtain ⟨st', e, hg⟩ := hm st.start h2 st ⟨rfl, ⟨hL, h2⟩, ⟨by simp only; omega, by omega⟩, h4, h5, fun _ _ _ _ => trivial⟩
      simp only [e]
      have hs := hg.start
      have hp := hg.pos
      simp only at hs hp
      split
      · rename_i ha
        left
        refine ⟨st', rfl, ⟨hg.len, hg.views, by omega, ?_, ?_⟩⟩
        · intro _; omega
        · intro h; rw [ha] at h; simp at h
      · rcases ih { st' with start := st'.pos + 1, pos := st'.pos + 1 } rfl (by simp only; omega) (by simp only; omega) hg.len
          hg.views with ⟨st2, e2, hf⟩ | ⟨e2, hf⟩
        · left
          exact ⟨st2, e2, ⟨hf.len, hf.views, by have := hf.from_le; simp only at this; omega, hf.acc, hf.rej⟩⟩
        · right
          simp only at hf
          exact ⟨e2, by push_cast; omega⟩
    · rename_i hge
      left
      refine ⟨_, rfl, ⟨h4, h5, by simp, by simp, ?_⟩⟩
      intro _; simp only; omega

/-- A tree whose every match attempt keeps the invariant. -/
def SafeTree (cx : Ctx) (t : Node) : Prop := ∀ L s, 0 ≤ L → L ≤ s → GoodK cx ⟨L, s, groupsOf t, fun _ _ _ => True⟩ (run cx t [])

theorem safeTree {cx : Ctx} {nul : Bool} (hnul : nul = true → cx.post.head? = some 0) {t : Node} (h : safe nul t = true)
    (hs : ∀ i ∈ slots t, i < groupsOf t) : SafeTree cx t :=
  fun _ _ _ _ => run_good hnul (fun _ _ _ => trivial) t h hs [] (by simp)

/-- Invariant of every result a program can hold. -/
structure Inv (cx : Ctx) (n : Nat) (st : St) : Prop where
  len : st.groups.length = n
  views : ∀ v ∈ st.groups, ViewIn cx 0 v
  start : 0 ≤ st.start ∧ st.start ≤ st.pos
  acc : st.accepted = true → st.pos ≤ cx.qend
  rej : st.accepted = false → cx.qend ≤ st.start ∧ st.start = st.pos ∧ st.pos ≤ cx.qend + 1

theorem ViewIn.mono {cx : Ctx} {a b : Int} {v : Option (Int × Int)} (h : ViewIn cx b v) (hab : a ≤ b) : ViewIn cx a v := by
  intro x y e
  have := h x y e
  omega

theorem Found.inv {cx : Ctx} {L frm : Int} {n : Nat} {st : St} (h : Found cx L frm n st) (hL : 0 ≤ L) (hf : 0 ≤ frm) :
    Inv cx n st := by
  have := h.from_le
  refine ⟨h.len, fun v hv => (h.views v hv).mono hL, ?_, fun ha => (h.acc ha).2.2, h.rej⟩
  cases ha : st.accepted with
  | true => have := h.acc ha; omega
  | false => have := h.rej ha; omega

theorem replicate_views (cx : Ctx) (L : Int) (n : Nat) : ∀ v ∈ List.replicate n (none : Option (Int × Int)), ViewIn cx L v := by
  intro v hv a b e
  simp at hv
  rw [hv.2] at e
  simp at e

/-- `next()` from any position inside the query. -/
theorem next_good {cx : Ctx} {t : Node} (h : SafeTree cx t) (f : Nat) (st : St) (h0 : 0 ≤ st.pos) (h1 : st.pos ≤ cx.qend + 1) :
    (∃ st', next cx t f st = .ok st' ∧ Found cx st.pos st.pos (groupsOf t) st') ∨
      (next cx t f st = .timeout ∧ (f : Int) < cx.qend - st.pos) := by
  have := nextLoop_good (cx := cx) (m := run cx t []) (L := st.pos) (n := groupsOf t) h0
    (fun s hs => h st.pos s h0 hs) f { st with groups := List.replicate (groupsOf t) none, start := st.pos } rfl
    (by simp) (by simpa using h1) (by simp) (replicate_views cx _ _)
  exact this

theorem construct_good {cx : Ctx} {t : Node} (h : SafeTree cx t) (f : Nat) :
    (∃ st', construct cx t f = .ok st' ∧ Inv cx (groupsOf t) st') ∨
      (construct cx t f = .timeout ∧ (f : Int) < cx.qend) := by
  have hq : 0 ≤ cx.qend := by simp [Ctx.qend]
  obtain ⟨st1, e1, g1⟩ := h 0 0 (by omega) (by omega) (initSt t)
    ⟨rfl, ⟨by simp, by simp⟩, ⟨by simp [initSt], by simp [initSt, hq]⟩, by simp [initSt], replicate_views cx _ _, fun _ _ _ _ => trivial⟩
  have hs := g1.start
  have hp := g1.pos
  simp only at hs hp
  simp only [construct, e1]
  split
  · rename_i ha
    left
    refine ⟨st1, rfl, ⟨g1.len, g1.views, by omega, fun _ => by omega, ?_⟩⟩
    intro hf; rw [ha] at hf; simp at hf
  · rcases next_good h f st1 (by omega) (by omega) with ⟨st2, e2, h2⟩ | ⟨e2, h2⟩
    · left; exact ⟨st2, e2, h2.inv (by omega) (by omega)⟩
    · right; exact ⟨e2, by omega⟩

theorem reach_inv {cx : Ctx} {t : Node} (h : SafeTree cx t) {st : St} (hr : Reach cx t st) : Inv cx (groupsOf t) st := by
  induction hr with
  | @make f st e =>
    rcases construct_good h f with ⟨st', e', hi⟩ | ⟨e', _⟩
    · rw [e] at e'; cases e'; exact hi
    · rw [e] at e'; cases e'
  | @next f st st' _ e ih =>
    have h0 : 0 ≤ st.pos := by have := ih.start; omega
    have h1 : st.pos ≤ cx.qend + 1 := by
      cases ha : st.accepted with
      | true => have := ih.acc ha; omega
      | false => have := ih.rej ha; omega
    rcases next_good h f st h0 h1 with ⟨st2, e2, h2⟩ | ⟨e2, _⟩
    · rw [e] at e2; cases e2; exact h2.inv h0 h0
    · rw [e] at e2; cases e2

theorem inv_pos {cx : Ctx} {n : Nat} {st : St} (ih : Inv cx n st) : 0 ≤ st.pos ∧ st.pos ≤ cx.qend + 1 := by
  have := ih.start
  cases ha : st.accepted with
  | true => have := ih.acc ha; omega
  | false => have := ih.rej ha; omega

/-! ## The surrounding memory -/

/-- Outcomes that do not change in a larger memory. -/
def Outcome.defined : Outcome → Bool
  | .ub => false
  | _ => true

theorem nextLoop_le {a b : Ctx} (H : a.Le b) {m m' : K} (hm : KLe m m') : ∀ (f : Nat) (st : St),
    (nextLoop a m f st).defined = true → nextLoop b m' f st = nextLoop a m f st := by
  intro f
  induction f with
  | zero => intro st _; simp only [nextLoop, H.qend]
  | succ f ih =>
    intro st h
    simp only [nextLoop, ← H.qend] at h ⊢
    split at h
    · rename_i hlt
      simp only [hlt, if_true]
      split at h
      · simp [Outcome.defined] at h
      · rename_i st1 h1
        rw [hm _ _ h1]
        simp only
        split at h
        · rename_i ha; rw [if_pos ha, if_pos ha]
        · rename_i ha; rw [if_neg ha, if_neg ha]; exact ih _ h
    · rename_i hlt; rw [if_neg hlt, if_neg hlt]

theorem next_le {a b : Ctx} (H : a.Le b) (t : Node) (f : Nat) (st : St) (h : (next a t f st).defined = true) :
    next b t f st = next a t f st := nextLoop_le H (run_le H t [] [] .nil) f _ h

theorem construct_le {a b : Ctx} (H : a.Le b) (t : Node) (f : Nat) (h : (construct a t f).defined = true) :
    construct b t f = construct a t f := by
  simp only [construct] at h ⊢
  split at h
  · simp [Outcome.defined] at h
  · rename_i st1 h1
    rw [run_le H t [] [] .nil _ _ h1]
    simp only
    split at h
    · rename_i ha; rw [if_pos ha, if_pos ha]
    · rename_i ha; rw [if_neg ha, if_neg ha]; exact next_le H t f _ h

/-! ## Any tree -/

/-- The search never moves the start backwards if every attempt ends at or after its start; without any condition it keeps
the number of slots. -/
theorem nextLoop_len {cx : Ctx} {t : Node} : ∀ (f : Nat) (a b : St), nextLoop cx (run cx t []) f a = .ok b →
    b.groups.length = a.groups.length := by
  intro f
  induction f with
  | zero =>
    intro a b hb
    simp only [nextLoop] at hb
    split at hb
    · simp at hb
    · simp at hb; subst hb; rfl
  | succ f ih =>
    intro a b hb
    simp only [nextLoop] at hb
    split at hb
    · split at hb
      · simp at hb
      · rename_i a' ha'
        have hl := run_groups_length cx t a a' ha'
        split at hb
        · simp at hb; subst hb; exact hl
        · rw [ih _ _ hb]; exact hl
    · simp at hb; subst hb; rfl

end ERegex

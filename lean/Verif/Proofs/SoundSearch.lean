import Verif.Proofs.Sound
/-!
# Soundness of the search
-/
set_option autoImplicit false
namespace ERegex
open Spec

/-- What a tree may capture in each slot: text in the language of one of the groups of that slot. -/
def CapOk (cx : Ctx) (t : Node) (i : Nat) (a b : Int) : Prop :=
  ∃ m, (i, m) ∈ capsOf t ∧ 0 ≤ a ∧ 0 ≤ b ∧ Den cx.query (toRx m) a.toNat b.toNat

/-- Every match attempt keeps the invariant, and is sound. -/
def SoundTree (cx : Ctx) (t : Node) : Prop :=
  ∀ L s, 0 ≤ L → L ≤ s → GoodK cx ⟨L, s, groupsOf t, CapOk cx t⟩ (run cx t []) ∧
    Snd cx ⟨L, s, groupsOf t, CapOk cx t⟩ (toRx t) true (run cx t [])

theorem soundTree {cx : Ctx} {nul : Bool} (hnul : nul = true → cx.post.head? = some 0) {t : Node} (h : safe nul t = true)
    (hs : snd false true t = true) (hsl : ∀ i ∈ slots t, i < groupsOf t) : SoundTree cx t := by
  intro L s _ _
  refine run_snd hnul t false true h hs hsl ?_ [] (by simp) (by simp)
  rintro ⟨i, m⟩ hx a b ha hb hd
  exact ⟨m, hx, ha, hb, hd⟩

/-- An accepted result comes from an attempt that began at its start, and its captures are in the languages of their groups. -/
structure Correct (cx : Ctx) (t : Node) (st : St) : Prop where
  text : st.accepted = true → 0 ≤ st.start ∧ st.start ≤ st.pos ∧ Den cx.query (toRx t) st.start.toNat st.pos.toNat
  caps : ∀ (i : Nat) (a b : Int), st.groups[i]? = some (some (a, b)) → CapOk cx t i a b

theorem correct_attempt {cx : Ctx} {t : Node} (h : SoundTree cx t) {L : Int} {st st' : St} (hL : 0 ≤ L) (h1 : L ≤ st.start)
    (hs : st.start = st.pos) (h2 : st.pos ≤ cx.qend) (hlen : st.groups.length = groupsOf t) (hv : ∀ v ∈ st.groups, ViewIn cx L v)
    (hc : ∀ (i : Nat) (a b : Int), st.groups[i]? = some (some (a, b)) → CapOk cx t i a b) (e : run cx t [] st = some st') :
    Correct cx t st' ∧ Good cx ⟨L, st.start, groupsOf t, CapOk cx t⟩ st' := by
  obtain ⟨g, s⟩ := h L st.start hL h1
  have hg : Good cx ⟨L, st.start, groupsOf t, CapOk cx t⟩ st := ⟨rfl, ⟨hL, h1⟩, ⟨by simp only; omega, h2⟩, hlen, hv, hc⟩
  have g' := g.get hg e
  refine ⟨⟨fun ha => ?_, g'.caps⟩, g'⟩
  have := s st st' hg (fun _ => hs) e ha
  have hst := g'.start; have hp := g'.pos
  simp only at hst hp
  refine ⟨by omega, by omega, ?_⟩
  rw [hst]
  simpa [off, hs] using this

theorem nextLoop_correct {cx : Ctx} {t : Node} (h : SoundTree cx t) {L : Int} (hL : 0 ≤ L) : ∀ (f : Nat) (st st' : St),
    L ≤ st.start → st.start = st.pos → st.groups.length = groupsOf t → (∀ v ∈ st.groups, ViewIn cx L v) →
    (∀ (i : Nat) (a b : Int), st.groups[i]? = some (some (a, b)) → CapOk cx t i a b) →
    nextLoop cx (run cx t []) f st = .ok st' → Correct cx t st' := by
  intro f
  induction f with
  | zero =>
    intro st st' _ _ _ _ hc e
    simp only [nextLoop] at e
    split at e
    · simp at e
    · simp only [Outcome.ok.injEq] at e; subst e; exact ⟨by simp, hc⟩
  | succ f ih =>
    intro st st' h1 hs hlen hv hc e
    simp only [nextLoop] at e
    split at e
    · rename_i hlt
      split at e
      · simp at e
      · rename_i st1 e1
        obtain ⟨c1, g1⟩ := correct_attempt h hL h1 hs (by omega) hlen hv hc e1
        split at e
        · simp only [Outcome.ok.injEq] at e; subst e; exact c1
        · have := g1.pos
          simp only at this
          exact ih { st1 with start := st1.pos + 1, pos := st1.pos + 1 } st' (by simp only; omega) rfl g1.len g1.views g1.caps e
    · simp only [Outcome.ok.injEq] at e; subst e; exact ⟨by simp, hc⟩

theorem next_correct {cx : Ctx} {t : Node} (h : SoundTree cx t) {f : Nat} {st st' : St} (h0 : 0 ≤ st.pos)
    (e : next cx t f st = .ok st') : Correct cx t st' := by
  refine nextLoop_correct h (L := st.pos) h0 f _ st' (by simp) rfl (by simp) (replicate_views cx _ _) ?_ e
  intro i a b hi
  simp only [List.getElem?_replicate] at hi
  split at hi <;> simp at hi

theorem soundTree_safe {cx : Ctx} {t : Node} (h : SoundTree cx t) (hs : SafeTree cx t) {st : St} (hr : Reach cx t st) :
    Correct cx t st := by
  cases hr with
  | @make f st e =>
    simp only [construct] at e
    split at e
    · simp at e
    · rename_i st1 e1
      have hq : 0 ≤ cx.qend := by simp [Ctx.qend]
      obtain ⟨c1, g1⟩ := correct_attempt h (L := 0) (by omega) (st := initSt t) (by simp [initSt]) rfl (by simp [initSt, hq])
        (by simp [initSt]) (replicate_views cx _ _) (by
          intro i a b hi
          simp only [initSt, List.getElem?_replicate] at hi
          split at hi <;> simp at hi) e1
      split at e
      · simp only [Outcome.ok.injEq] at e; subst e; exact c1
      · have := g1.pos
        simp only [initSt] at this
        exact next_correct h (by omega) e
  | @next f st0 st hr e =>
    exact next_correct h (inv_pos (reach_inv hs hr)).1 e

end ERegex

namespace ERegex
open Spec

mutual
/-- The heuristics keep every group, its slot and the language of its content. -/
theorem caps_opt : ∀ (t : Node) (inj : List (List Int)), ∀ x ∈ capsOf (opt t inj), ∃ y ∈ capsOf t, y.1 = x.1 ∧ Same (toRx x.2) (toRx y.2)
  | .exact .., _, x, h => by simp [opt, capsOf] at h
  | .range .., _, x, h => by simp [opt, capsOf] at h
  | .space, _, x, h => by simp [opt, capsOf] at h
  | .word, _, x, h => by simp [opt, capsOf] at h
  | .any, _, x, h => by simp [opt, capsOf] at h
  | .bos, _, x, h => by simp [opt, capsOf] at h
  | .eol, _, x, h => by simp [opt, capsOf] at h
  | .negated m, _, x, h => by simp [opt, capsOf] at h
  | .simple m [], inj, x, h => by
    simp only [opt] at h
    obtain ⟨y, h1, h2⟩ := caps_opt m inj x h
    exact ⟨y, by simp [capsOf, h1], h2⟩
  | .simple m (c :: cs), inj, x, h => by
    simp only [opt, capsOf, capsOfs, List.mem_append] at h
    rcases h with h | h | h
    · obtain ⟨y, h1, h2⟩ := caps_opt m inj x h; exact ⟨y, by simp [capsOf, h1], h2⟩
    · obtain ⟨y, h1, h2⟩ := caps_opt c [] x h; exact ⟨y, by simp [capsOf, capsOfs, h1], h2⟩
    · obtain ⟨y, h1, h2⟩ := caps_opts cs x h; exact ⟨y, by simp [capsOf, capsOfs, h1], h2⟩
  | .alt [], _, x, h => by simp [opt, capsOf, capsOfs] at h
  | .alt [c], inj, x, h => by
    simp only [opt] at h
    obtain ⟨y, h1, h2⟩ := caps_opt c inj x h; exact ⟨y, by simp [capsOf, capsOfs, h1], h2⟩
  | .alt (c :: d :: cs), _, x, h => by
    simp only [opt, capsOf, capsOfs, List.mem_append] at h
    rcases h with h | h | h
    · obtain ⟨y, h1, h2⟩ := caps_opt c [] x h; exact ⟨y, by simp [capsOf, capsOfs, h1], h2⟩
    · obtain ⟨y, h1, h2⟩ := caps_opt d [] x h; exact ⟨y, by simp [capsOf, capsOfs, h1], h2⟩
    · obtain ⟨y, h1, h2⟩ := caps_opts cs x h; exact ⟨y, by simp [capsOf, capsOfs, h1], h2⟩
  | .greedy m lo hi cs, inj, x, h => by
    have h' : x ∈ capsOf (opt m []) ∨ x ∈ capsOfs (opts cs) := by
      simp only [opt] at h
      split at h <;> simpa [capsOf] using h
    rcases h' with h | h
    · obtain ⟨y, h1, h2⟩ := caps_opt m [] x h; exact ⟨y, by simp [capsOf, h1], h2⟩
    · obtain ⟨y, h1, h2⟩ := caps_opts cs x h; exact ⟨y, by simp [capsOf, h1], h2⟩
  | .lazy m lo hi cs, inj, x, h => by
    have h' : x ∈ capsOf (opt m []) ∨ x ∈ capsOfs (opts cs) := by
      simp only [opt] at h
      split at h <;> simpa [capsOf] using h
    rcases h' with h | h
    · obtain ⟨y, h1, h2⟩ := caps_opt m [] x h; exact ⟨y, by simp [capsOf, h1], h2⟩
    · obtain ⟨y, h1, h2⟩ := caps_opts cs x h; exact ⟨y, by simp [capsOf, h1], h2⟩
  | .possessive m lo hi cs, _, x, h => by
    simp only [opt, capsOf, List.mem_append] at h
    rcases h with h | h
    · obtain ⟨y, h1, h2⟩ := caps_opt m [] x h; exact ⟨y, by simp [capsOf, h1], h2⟩
    · obtain ⟨y, h1, h2⟩ := caps_opts cs x h; exact ⟨y, by simp [capsOf, h1], h2⟩
  | .repeated m n cs, _, x, h => by
    simp only [opt, capsOf, List.mem_append] at h
    rcases h with h | h
    · obtain ⟨y, h1, h2⟩ := caps_opt m [] x h; exact ⟨y, by simp [capsOf, h1], h2⟩
    · obtain ⟨y, h1, h2⟩ := caps_opts cs x h; exact ⟨y, by simp [capsOf, h1], h2⟩
  | .group m idx cs, inj, x, h => by
    simp only [opt, capsOf, List.mem_cons, List.mem_append] at h
    rcases h with rfl | h | h
    · exact ⟨(idx, m), by simp [capsOf], rfl, opt_same m _⟩
    · obtain ⟨y, h1, h2⟩ := caps_opt m _ x h; exact ⟨y, by simp [capsOf, h1], h2⟩
    · obtain ⟨y, h1, h2⟩ := caps_opts cs x h; exact ⟨y, by simp [capsOf, h1], h2⟩
theorem caps_opts : ∀ (cs : List Node), ∀ x ∈ capsOfs (opts cs), ∃ y ∈ capsOfs cs, y.1 = x.1 ∧ Same (toRx x.2) (toRx y.2)
  | [], x, h => by simp [opts, capsOfs] at h
  | c :: cs, x, h => by
    simp only [opts, capsOfs, List.mem_append] at h
    rcases h with h | h
    · obtain ⟨y, h1, h2⟩ := caps_opt c [] x h; exact ⟨y, by simp [capsOfs, h1], h2⟩
    · obtain ⟨y, h1, h2⟩ := caps_opts cs x h; exact ⟨y, by simp [capsOfs, h1], h2⟩
end

theorem caps_rounds : ∀ (k : Nat) (t : Node), ∀ x ∈ capsOf (rounds k t), ∃ y ∈ capsOf t, y.1 = x.1 ∧ Same (toRx x.2) (toRx y.2)
  | 0, t, x, h => ⟨x, h, rfl, Same.refl _⟩
  | k + 1, t, x, h => by
    obtain ⟨y, h1, h2, h3⟩ := caps_rounds k (opt t []) x h
    obtain ⟨z, h4, h5, h6⟩ := caps_opt t [] y h1
    exact ⟨z, h4, h5.trans h2, h3.trans h6⟩

end ERegex

import Verif.Props.Iterate
/-!
# C65: when there are no more matches it stays that way
-/
set_option autoImplicit false
namespace ERegex.Props
open ERegex ERegex.Spec
open ERegex.Conformance (lit m)

/-- A search that finds nothing stops behind the query. -/
theorem loop_exhausted {cx : Ctx} {k : K} : ∀ (f : Nat) (a b : St), a.start = a.pos → nextLoop cx k f a = .ok b → b.accepted = false →
    b.start = b.pos ∧ cx.qend ≤ b.start
  | 0, a, b, ha, h, _ => by
    rw [nextLoop] at h
    split at h
    · simp at h
    · rename_i hq
      obtain rfl := Outcome.ok.inj h
      exact ⟨ha, by simpa using hq⟩
  | f + 1, a, b, ha, h, hb => by
    rw [nextLoop] at h
    split at h
    · split at h
      · simp at h
      · split at h
        · rename_i hacc
          obtain rfl := Outcome.ok.inj h
          rw [hacc] at hb; simp at hb
        · exact loop_exhausted f _ b rfl h hb
    · rename_i hq
      obtain rfl := Outcome.ok.inj h
      exact ⟨ha, by simpa using hq⟩

theorem reach_exhausted {cx : Ctx} {t : Node} {st : St} (hr : Reach cx t st) (ha : st.accepted = false) : st.start = st.pos ∧ cx.qend ≤ st.start := by
  cases hr with
  | make h =>
    rw [construct] at h
    split at h
    · simp at h
    · split at h
      · rename_i hacc
        obtain rfl := Outcome.ok.inj h
        rw [hacc] at ha; simp at ha
      · exact loop_exhausted _ { (_ : St) with groups := List.replicate (groupsOf t) none, start := _ } _ rfl h ha
  | next _ h => exact loop_exhausted _ { (_ : St) with groups := List.replicate (groupsOf t) none, start := _ } _ rfl h ha

/-- **C65.** Every pattern, every query, every result that a program can obtain: once the result is not accepted (`match` failed, or `next()` returned
false), calling `next()` any number of times returns at once, makes no further attempt, reads no memory, returns false again, and the result shows
nothing: no text and no captures. -/
theorem C65_no_more_matches (p : List Int) (t : Node) (_h : compile p = some t) (cx : Ctx) (st : St) (hr : Reach cx t st) (ha : st.accepted = false)
    (fuel : Nat) :
    ∃ st', next cx t fuel st = .ok st' ∧ st'.accepted = false ∧ toView st' = none ∧ st'.start = st.start ∧ st'.pos = st.pos ∧
      ∀ k v, getGroup st' k = some v → v = none := by
  obtain ⟨h1, h2⟩ := reach_exhausted hr ha
  have hn : next cx t fuel st = .ok { st with groups := List.replicate (groupsOf t) none, start := st.pos, accepted := false } := by
    rw [next]
    cases fuel <;> rw [nextLoop, if_neg (by simp only; omega)]
  refine ⟨_, hn, rfl, rfl, h1.symm, rfl, fun k v hk => ?_⟩
  rw [getGroup] at hk
  split at hk
  · simpa [toView] using hk.symm
  · have := List.mem_of_getElem? hk
    exact (List.mem_replicate.1 this).2

/-- **C65.** Hence a loop `while (result) result.next();` that has ended stays ended, and `operator!=` finds no difference to `end()`, whatever
happens afterwards. -/
theorem C65_stays_at_end (p : List Int) (t : Node) (h : compile p = some t) (cx : Ctx) (st st' : St) (hr : Reach cx t st) (ha : st.accepted = false)
    (hl : Later cx t st st') (r : St) : st'.accepted = false ∧ neqR st' (endR r) = false := by
  have key : Reach cx t st' ∧ st'.accepted = false := by
    induction hl with
    | @one f st1 e =>
      obtain ⟨s, h1, h2, _⟩ := C65_no_more_matches p t h cx st hr ha f
      rw [e] at h1
      obtain rfl := Outcome.ok.inj h1
      exact ⟨.next hr e, h2⟩
    | @more f st1 st2 _ e ih =>
      obtain ⟨s, h1, h2, _⟩ := C65_no_more_matches p t h cx st1 ih.1 ih.2 f
      rw [e] at h1
      obtain rfl := Outcome.ok.inj h1
      exact ⟨.next ih.1 e, h2⟩
  exact ⟨key.2, by rw [neqR_end]; exact key.2⟩

-- `(a)b` on "ab": one match, then nothing
example : ∃ t st st1, compile (str "(a)b") = some t ∧ construct (lit "ab") t 3 = .ok st ∧ st.accepted = true ∧ next (lit "ab") t 3 st = .ok st1 ∧
    st1.accepted = false ∧ next (lit "ab") t 3 st1 = .ok st1 :=
  ⟨_, ⟨0, 2, [some (0, 1)], true⟩, ⟨2, 2, [none], false⟩, rfl, by decide +kernel, rfl, by decide +kernel, rfl, by decide +kernel⟩

end ERegex.Props

import Verif.Props.Texts
import Verif.Props.NestedMore
/-!
# C30 : conditions on the pattern as written
-/
set_option autoImplicit false
namespace ERegex.Props
open ERegex ERegex.Spec
open ERegex.Conformance (lit m)

/-- The pattern `p` compiles, and in every query (of `char` values, shorter than 2^32-1; `d`: with a NUL byte behind it) matching returns, and
* an accepted result begins at the smallest position at which a match of `r` begins, and its text is a match there;
* if a match of `r` begins at 0 or at any other position before the end of the query, the result is accepted;
and the same for `next()` on every accepted result, from its end on. -/
def FindsLeftmost (p : List Int) (r : Rx) (d : Bool) : Prop :=
  ∃ t, compile p = some t ∧
    ∀ (cx : Ctx), (∀ c ∈ cx.query, c ∈ allChars) → cx.query.length < 4294967295 → (d = true → cx.post.head? = some 0) →
      ∀ (fuel : Nat), cx.query.length ≤ fuel →
        (∃ st, construct cx t fuel = .ok st ∧
          (st.accepted = true → ∃ s j : Nat, toView st = some ((s : Int), (j : Int)) ∧ Den cx.query r s j ∧ FirstStart cx.query r 0 s) ∧
          ((∃ x j, (x = 0 ∨ x < cx.query.length) ∧ Den cx.query r x j) → st.accepted = true)) ∧
        ∀ (st : St), Reach cx t st → ∀ f i : Nat, toView st = some ((f : Int), (i : Int)) →
          ∃ st', next cx t fuel st = .ok st' ∧
            (st'.accepted = true → ∃ s j : Nat, toView st' = some ((s : Int), (j : Int)) ∧ Den cx.query r s j ∧ FirstStart cx.query r i s) ∧
            ((∃ x j, i ≤ x ∧ x < cx.query.length ∧ Den cx.query r x j) → st'.accepted = true)

/-- From what a backtracking matcher prefers. -/
theorem leftmost_of {as : Alts} {t : Node} {d : Bool} (ht : compile as.spell = some t) (hfair : as.fair = true) (hy : as.yields = true)
    (hcon : ∀ (cx : Ctx), (∀ c ∈ cx.query, c ∈ allChars) → cx.query.length < 4294967295 → (d = true → cx.post.head? = some 0) →
      ∀ (fuel : Nat), cx.query.length ≤ fuel → ∃ st, construct cx t fuel = .ok st ∧
        (st.accepted = true → ∃ s w, Reports as st s w ∧ PreferredWay cx.query as 0 s w) ∧
        (st.accepted = false → ∀ x, (x = 0 ∨ x < cx.query.length) → as.ways cx.query 0 x noCaps = []))
    (hnext : ∀ (cx : Ctx), (∀ c ∈ cx.query, c ∈ allChars) → cx.query.length < 4294967295 → (d = true → cx.post.head? = some 0) →
      ∀ (fuel : Nat), cx.query.length ≤ fuel → ∀ (st : St), Reach cx t st → ∀ f i : Nat, toView st = some ((f : Int), (i : Int)) →
        ∃ st', next cx t fuel st = .ok st' ∧
          (st'.accepted = true → ∃ s w, Reports as st' s w ∧ PreferredWay cx.query as i s w) ∧
          (st'.accepted = false → ∀ x, i ≤ x → x < cx.query.length → as.ways cx.query 0 x noCaps = []))
    (hin : ∀ (cx : Ctx), (∀ c ∈ cx.query, c ∈ allChars) → cx.query.length < 4294967295 → (d = true → cx.post.head? = some 0) →
      ∀ st, Reach cx t st → ∀ (s : Nat) (w : Way), Reports as st s w → s ≤ cx.query.length) :
    FindsLeftmost as.spell as.sem d := by
  refine ⟨t, ht, fun cx hq hlen hd fuel hfuel => ?_⟩
  have hcomp : ∀ i j, i ≤ cx.query.length → Den cx.query as.sem i j → as.ways cx.query 0 i noCaps ≠ [] := by
    intro i j hi hden hnil
    obtain ⟨w, hw, _⟩ := C49_matches_are_ways as hy cx.query i j hi hden
    rw [hnil] at hw; simp at hw
  have hit : ∀ (st : St) (frm s : Nat) (w : Way), Reach cx t st → Reports as st s w → PreferredWay cx.query as frm s w →
      ∃ s j : Nat, toView st = some ((s : Int), (j : Int)) ∧ Den cx.query as.sem s j ∧ FirstStart cx.query as.sem frm s := by
    intro st frm s w hr h1 h2
    have hv : toView st = some ((s : Int), (w.1 : Int)) := by have := h1.1; simpa [getGroup] using this
    have hden := C49_ways_are_matches as hfair _ _ _ (List.mem_of_mem_head? h2.2.1)
    refine ⟨s, w.1, hv, hden, h2.1, ⟨_, hden⟩, fun x j hx hxd => ?_⟩
    by_cases hlt : s ≤ x
    · exact hlt
    · have := hin cx hq hlen hd st hr s w h1
      exact absurd (h2.2.2 x hx (by omega)) (hcomp x j (by omega) hxd)
  constructor
  · obtain ⟨st, e1, e2, e3⟩ := hcon cx hq hlen hd fuel hfuel
    refine ⟨st, e1, fun ha => ?_, ?_⟩
    · obtain ⟨s, w, h1, h2⟩ := e2 ha
      exact hit st 0 s w (.make e1) h1 h2
    · rintro ⟨x, j, hx, hden⟩
      cases ha : st.accepted with
      | true => rfl
      | false => exact absurd (e3 ha x hx) (hcomp x j (by omega) hden)
  · intro st hr f i hv
    obtain ⟨st', e1, e2, e3⟩ := hnext cx hq hlen hd fuel hfuel st hr f i hv
    refine ⟨st', e1, fun ha => ?_, ?_⟩
    · obtain ⟨s, w, h1, h2⟩ := e2 ha
      exact hit st' i s w (.next hr e1) h1 h2
    · rintro ⟨x, j, h1, h2, hden⟩
      cases ha : st'.accepted with
      | true => rfl
      | false => exact absurd (e3 ha x h1 h2) (hcomp x j (by omega) hden)

/-- **C30 (partial).** A condition on the pattern as written: for every pattern that meets the condition of C49 and has no possessive quantifier, matching
and `next()` find the first position where a match of the pattern begins. -/
theorem C30_written_partial (as : Alts) (hr : as.capRegular = true) (hy : as.yields = true) (hc : ∀ c ∈ as.spell, c ∈ allChars) :
    FindsLeftmost as.spell as.sem as.dollar := by
  have hsane : as.capSane = true := regular_sane hr
  obtain ⟨t, ht, hcon⟩ := C49_captures_partial as hr hc
  obtain ⟨t', ht', hnext⟩ := C49_next_partial as hr hc
  rw [ht] at ht'; cases ht'
  exact leftmost_of ht (alts_fair as (sane_alts as hsane)) hy hcon hnext (fun cx hq hlen hd st h s w g => (sane_inside hsane hc ht hq hlen hd h g).2)

/-- **C30 (partial), nested groups.** -/
theorem C30_nested_partial (as : Alts) (hr : as.committed = true) (hre : as.retries = true) (hy : as.yields = true) (hc : ∀ c ∈ as.spell, c ∈ allChars) :
    FindsLeftmost as.spell as.sem as.dollars := by
  obtain ⟨t, ht, hcon⟩ := C49_nested_partial as hr hre hc
  obtain ⟨t', ht', hnext⟩ := C49_nested_next_partial as hr hre hc
  rw [ht] at ht'; cases ht'
  exact leftmost_of ht (plainly_fair as (committed_facts hr).2.1) hy hcon hnext (fun cx hq hlen hd st h s w g => committed_inside hr hc ht hd h g)

-- `(\d+)-(\d+)`, `\w+(?:,\w+)*` and `<((\w+)=\d)>`
private def digits : Atom := .group true (.last false (.cons (.esc 100) (.plus .greedy) (.nil false)))
private def span2 : Alts := .last false (.cons digits .once (.cons (.chr 45) .once (.cons digits .once (.nil false))))
example : span2.spell = str "(\\d+)-(\\d+)" ∧ span2.capRegular = true ∧ span2.yields = true := by decide +kernel
private def listP : Alts := .last false (.cons (.esc 119) (.plus .greedy) (.cons (.group false (.last false (.cons (.chr 44) .once
  (.cons (.esc 119) (.plus .greedy) (.nil false))))) (.star .greedy) (.nil false)))
example : listP.spell = str "\\w+(?:,\\w+)*" ∧ listP.committed = true ∧ listP.retries = true ∧ listP.yields = true := by decide +kernel
private def keyed : Alts := .last false (.cons (.chr 60) .once (.cons (.group true (.last false (.cons (.group true (.last false (.cons (.esc 119) (.plus .greedy) (.nil false)))) .once
  (.cons (.chr 61) .once (.cons (.esc 100) .once (.nil false)))))) .once (.cons (.chr 62) .once (.nil false))))
example : keyed.spell = str "<((\\w+)=\\d)>" ∧ keyed.committed = true ∧ keyed.retries = true ∧ keyed.yields = true := by decide +kernel

end ERegex.Props

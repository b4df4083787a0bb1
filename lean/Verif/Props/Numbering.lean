import Verif.Proofs.Numbering
import Verif.Props.Written
import Verif.Props.Groups
/-!
# C09, C10, C11, C45 : the numbers of the groups of a pattern as written

`Alts.groups` lists the contents of the capturing groups in the order of their opening parentheses, `Alts.captures` the same with the numbers that the
library uses (Spec/Numbering.lean).
-/
set_option autoImplicit false
namespace ERegex.Props
open ERegex ERegex.Spec
open ERegex.Conformance (lit m)

theorem slots_written {as : Alts} (hok : as.ok = true) {t : Node} (h : compile as.spell = some t) : slots t = as.captures.map Prod.fst := by
  obtain ⟨b, h1, h2⟩ := compile_slots h
  rw [build_tree as hok] at h1
  cases h1
  rw [h2, tree_numbers as hok]

theorem reach_len {cx : Ctx} {t : Node} {st : St} (hr : Reach cx t st) : st.groups.length = groupsOf t := by
  cases hr with
  | make e => exact C09_result_slots cx t _ st e
  | next _ e => rw [nextLoop_len _ _ _ e]; simp

/-- **C09.** For every well-formed pattern, a result obtained by matching and calling `next()` any number of times has exactly the groups
`result[0]`, …, `result[n]`, where `n` is the number of capturing groups of the pattern as written. -/
theorem C09_written (as : Alts) (hok : as.ok = true) :
    ∃ t, compile as.spell = some t ∧ ∀ (cx : Ctx) (st : St), Reach cx t st → ∀ k, (∃ v, getGroup st k = some v) ↔ k ≤ as.groups.length := by
  obtain ⟨t, h, _⟩ := compile_tame hok
  refine ⟨t, h, fun cx st hr k => ?_⟩
  have hl := reach_len hr
  have e : as.groups.length = groupsOf t := by
    rw [groups_slots, slots_written hok h, ← captures_contents as]; simp
  rw [e, ← hl]
  unfold getGroup
  split
  · simp; omega
  · rw [← Option.isSome_iff_exists, Option.isSome_iff_ne_none, Ne, List.getElem?_eq_none_iff]; omega

theorem loop_frame {cx : Ctx} {t : Node} {k : Nat} (hk : k ∉ slots t) : ∀ (f : Nat) (a b : St), nextLoop cx (run cx t []) f a = .ok b →
    b.groups[k]? = a.groups[k]? := by
  intro f
  induction f with
  | zero =>
    intro a b hb
    simp only [nextLoop] at hb
    split at hb
    · simp at hb
    · simp at hb; subst hb; rfl
  | succ f ih =>
    intro a b hb
    simp only [nextLoop] at hb
    split at hb
    · split at hb
      · simp at hb
      · rename_i a' ha'
        have hl := run_groups_frame cx t a a' ha' k hk
        split at hb
        · simp at hb; subst hb; exact hl
        · rw [ih _ _ hb]; exact hl
    · simp at hb; subst hb; rfl

theorem unwritten {cx : Ctx} {t : Node} {k : Nat} (hk : k ∉ slots t) {st : St} (hr : Reach cx t st) : ∀ v, st.groups[k]? = some v → v = none := by
  have e : ∀ f a b, next cx t f a = .ok b → ∀ v, b.groups[k]? = some v → v = none := by
    intro f a b hb v hv
    rw [loop_frame hk _ _ _ hb] at hv
    exact List.eq_of_mem_replicate (List.mem_of_getElem? hv)
  cases hr with
  | next _ h => exact e _ _ _ h
  | @make fuel st h =>
    unfold construct at h
    split at h
    · simp at h
    · rename_i s1 h1
      split at h
      · simp at h; subst h
        intro v hv
        rw [run_groups_frame cx t _ _ h1 k hk] at hv
        exact List.eq_of_mem_replicate (List.mem_of_getElem? hv)
      · exact e _ _ _ h

/-- **C10.** For every well-formed pattern, every query and every result: a group whose number no capturing group of the pattern has is empty. -/
theorem C10_written (as : Alts) (hok : as.ok = true) (t : Node) (h : compile as.spell = some t) (cx : Ctx) (st : St) (hr : Reach cx t st) (k : Nat)
    (hk : ∀ content, (k, content) ∉ as.captures) (v : View) (hv : getGroup st (k + 1) = some v) : v = none := by
  refine unwritten (k := k) ?_ hr v (by simpa [getGroup] using hv)
  rw [slots_written hok h]
  intro hm
  obtain ⟨⟨n, c⟩, h1, rfl⟩ := List.mem_map.1 hm
  exact hk c h1

/-- **C45 (partial).** For every well-formed pattern that is `sure` and `tame`, whether or not the result is accepted: if `result[k + 1]` is not empty by
default then it is a piece of the query that belongs to the language of the content of a capturing group to which the library gives the number
`k`.  Missing: the other patterns. -/
theorem C45_numbered_partial (as : Alts) (hok : as.ok = true) (hs : as.sure false true = true) (nul : Bool) (ht : as.tame nul false 1 = true) (t : Node)
    (h : compile as.spell = some t) (cx : Ctx) (hnul : nul = true → cx.post.head? = some 0) (st : St) (hr : Reach cx t st) (k : Nat) (x y : Int)
    (hg : getGroup st (k + 1) = some (some (x, y))) :
    ∃ (i j : Nat) (content : Alts), x = i ∧ y = j ∧ (k, content) ∈ as.captures ∧ Den cx.query content.sem i j := by
  obtain ⟨i, j, c, h1, h2, h3, h4⟩ := C45_captures_in_group_language_partial _ _ t (build_tree as hok) h nul
    (tame_safe nul t (tame_of hok h ht)) (compile_sure hok hs h) cx hnul st hr k x y hg
  obtain ⟨g, hg1, hg2⟩ := (tree_lists as hok).mem h3
  exact ⟨i, j, g, h1, h2, hg1, (hg2 _ _ _).1 h4⟩

/-- **C11 (partial).** Under the conditions of C45, if the library numbers the groups in the order in which they are opened, then `result[k + 1]`, if not empty
by default, is a piece of the query that belongs to the language of the content of the `k`-th capturing group of the pattern as written, counted by opening
parentheses; nested groups, alternatives and classes included.  Missing: the patterns that are not numbered so (the `C11_refuted_…`), and those
that are not `sure` and `tame`. -/
theorem C11_written_partial (as : Alts) (hok : as.ok = true) (hs : as.sure false true = true) (hn : as.InOrder) (nul : Bool)
    (ht : as.tame nul false 1 = true) (t : Node)
    (h : compile as.spell = some t) (cx : Ctx) (hnul : nul = true → cx.post.head? = some 0) (st : St) (hr : Reach cx t st) (k : Nat) (x y : Int)
    (hg : getGroup st (k + 1) = some (some (x, y))) :
    ∃ (i j : Nat) (content : Alts), x = i ∧ y = j ∧ as.groups[k]? = some content ∧ Den cx.query content.sem i j := by
  obtain ⟨i, j, c, h1, h2, h3, h4⟩ := C45_numbered_partial as hok hs nul ht t h cx hnul st hr k x y hg
  refine ⟨i, j, c, h1, h2, ?_, h4⟩
  obtain ⟨n, hlt, hn'⟩ := List.mem_iff_getElem.1 h3
  have e1 : (as.captures.map Prod.fst)[n]? = some k := by simp [List.getElem?_eq_getElem hlt, hn']
  have e2 : as.groups[n]? = some c := by rw [← captures_contents as]; simp [List.getElem?_eq_getElem hlt, hn']
  have hlen : as.captures.length = as.groups.length := by rw [← captures_contents as]; simp
  unfold Alts.InOrder at hn
  rw [hn, List.getElem?_range (by omega)] at e1
  cases e1; exact e2

/-- `"(\w+)"=(\d+(x(y)?))|-` -/
def nestedWritten : Alts :=
  .more false (.cons (.chr 34) .once (.cons (.group true (.last false (.cons (.esc 119) (.plus .greedy) (.nil false)))) .once (.cons (.chr 34) .once
    (.cons (.chr 61) .once (.cons (.group true (.last false (.cons (.esc 100) (.plus .greedy) (.cons (.group true (.last false (.cons (.chr 120) .once
      (.cons (.group true (.last false (.cons (.chr 121) .once (.nil false)))) (.opt .greedy) (.nil false))))) .once (.nil false))))) .once (.nil false))))))
  (.last false (.cons (.chr 45) .once (.nil false)))

-- the conditions hold of it; a result
example : nestedWritten.ok = true ∧ nestedWritten.sure false true = true ∧ nestedWritten.tame false false 1 = true ∧ nestedWritten.InOrder ∧
    nestedWritten.groups.length = 4 ∧ nestedWritten.spell = str "\"(\\w+)\"=(\\d+(x(y)?))|-" := by decide
example : m "\"(\\w+)\"=(\\d+(x(y)?))|-" "k: \"ab\"=17xy." = some [some "\"ab\"=17xy", some "ab", some "17xy", some "xy", some "y"] := by decide +kernel

/-- `(a)[b](c)` -/
def restartWritten : Alts :=
  .last false (.cons (.group true (.last false (.cons (.chr 97) .once (.nil false)))) .once (.cons (.cls false [.chr 98] false) .once
    (.cons (.group true (.last false (.cons (.chr 99) .once (.nil false)))) .once (.nil false))))

/-- **C11, refuted.** In `(a)[b](c)` both groups have number 0: whatever the query, `result[2]` is always empty. -/
theorem C11_refuted_always_empty : ∃ t, compile (str "(a)[b](c)") = some t ∧ ∀ (cx : Ctx) (st : St), Reach cx t st → getGroup st 2 = some none := by
  have e : restartWritten.spell = str "(a)[b](c)" := by decide
  have hok : restartWritten.ok = true := by decide
  obtain ⟨t, h, h0⟩ := C09_written restartWritten hok
  refine ⟨t, by rw [← e]; exact h, fun cx st hr => ?_⟩
  obtain ⟨v, hv⟩ := (h0 cx st hr 2).2 (by decide)
  rw [hv, C10_written _ hok t h cx st hr 1 ?_ v hv]
  intro c hc
  have : (1 : Nat) ∈ restartWritten.captures.map Prod.fst := List.mem_map.2 ⟨_, hc, rfl⟩
  revert this; decide

end ERegex.Props

import Verif.Proofs.FinalTree
import Verif.Props.Numbering
/-!
# C35, C36 : patterns whose capturing groups come last

Captures of failed attempts can stay visible (the refutations of C35 and C36 in Props/Search.lean).  Not so if every capturing group is the last thing in
its alternative and is not quantified (Spec/Final.lean), as in `\w+=(\d+)`.
-/
set_option autoImplicit false
namespace ERegex.Props
open ERegex ERegex.Spec
open ERegex.Conformance (lit m)

theorem compile_final {as : Alts} (hok : as.ok = true) (hl : as.groupsLast = true) {t : Node} (h : compile as.spell = some t) : final t = true := by
  simp only [compile, build_tree as hok, Option.bind_some] at h
  obtain ⟨k, rfl⟩ := optimize_rounds h
  exact final_rounds k _ (tree_final as hok hl)

/-- **C35 (partial).** For every well-formed pattern whose capturing groups come last, on every query: a result that is not accepted, whether of matching or
of `next()`, is empty and all its groups are empty.  Missing: patterns with a group that is quantified or has something behind it, for which it is false. -/
theorem C35_written_partial (as : Alts) (hok : as.ok = true) (hl : as.groupsLast = true) (t : Node) (h : compile as.spell = some t) (cx : Ctx) (st : St)
    (hr : Reach cx t st) (ha : st.accepted = false) : toView st = none ∧ ∀ k v, getGroup st k = some v → v = none := by
  have hv : toView st = none := by simp [toView, ha]
  refine ⟨hv, fun k v hk => ?_⟩
  unfold getGroup at hk
  split at hk
  · rw [hv] at hk; exact (Option.some.inj hk).symm
  · rw [(reach_ends (compile_final hok hl h) hr).1 ha] at hk
    exact List.eq_of_mem_replicate (List.mem_of_getElem? hk)

/-- **C36 (partial).** For every well-formed pattern whose capturing groups come last and that meets the condition of C18 (of C19, if a NUL byte follows the
query): a group that is not empty by default belongs to an accepted result, begins inside the reported match and ends where the match ends.  Missing: the
other patterns; containment in the match is false in general. -/
theorem C36_inside_match_partial (as : Alts) (hok : as.ok = true) (hl : as.groupsLast = true) (nul : Bool) (ht : as.tame nul false 1 = true) (t : Node)
    (h : compile as.spell = some t) (cx : Ctx) (hnul : nul = true → cx.post.head? = some 0) (st : St) (hr : Reach cx t st) (k : Nat) (x y : Int)
    (hg : getGroup st (k + 1) = some (some (x, y))) :
    ∃ i j, toView st = some (i, j) ∧ i ≤ x ∧ y = j ∧ 0 ≤ i ∧ j ≤ cx.query.length := by
  have hg' : st.groups[k]? = some (some (x, y)) := by simpa [getGroup] using hg
  have hsafe : SafeTree cx t := compile_safeTree h (tame_safe nul t (tame_of hok h ht)) hnul
  have hi := reach_inv hsafe hr
  obtain ⟨h1, h2⟩ := reach_ends (compile_final hok hl h) hr
  cases ha : st.accepted with
  | false =>
    rw [h1 ha] at hg'
    have := List.eq_of_mem_replicate (List.mem_of_getElem? hg'); cases this
  | true =>
    obtain ⟨s, h3, h4, h5, h6⟩ := h2 ha
    have hst := run_start cx t s st h4
    have hpos : 0 ≤ st.start := hi.start.1
    have hend : s.pos ≤ cx.qend := by
      have : (0 : Int) ≤ cx.qend := by simp [Ctx.qend]
      omega
    obtain ⟨st2, e2, g2⟩ := hsafe s.start s.start (by omega) (by omega) s
      ⟨rfl, ⟨by simp only; omega, by simp⟩, ⟨by simp only; omega, hend⟩, by simp [h3], by rw [h3]; exact replicate_views cx _ _, fun _ _ _ _ => trivial⟩
    rw [h4] at e2; cases e2
    have hv := g2.views _ (List.mem_of_getElem? hg') x y rfl
    simp only at hv
    refine ⟨st.start, st.pos, by simp [toView, ha], by omega, ?_, hpos, ?_⟩
    · rcases ((run_ends cx t (compile_final hok hl h)) s st h4).2 ha k x y hg' with h7 | h7
      · rw [h3] at h7
        have := List.eq_of_mem_replicate (List.mem_of_getElem? h7); cases this
      · exact h7
    · have := hi.acc ha; simpa [Ctx.qend] using this

/-- `(?:key|k)=(\d+(x)|-)|at ([^,]+)` -/
def lastWritten : Alts :=
  .more false (.cons (.group false (.more false (.cons (.chr 107) .once (.cons (.chr 101) .once (.cons (.chr 121) .once (.nil false))))
      (.last false (.cons (.chr 107) .once (.nil false))))) .once (.cons (.chr 61) .once
    (.cons (.group true (.more false (.cons (.esc 100) (.plus .greedy) (.cons (.group true (.last false (.cons (.chr 120) .once (.nil false)))) .once (.nil false)))
      (.last false (.cons (.chr 45) .once (.nil false))))) .once (.nil false))))
  (.last false (.cons (.chr 97) .once (.cons (.chr 116) .once (.cons (.chr 32) .once
    (.cons (.group true (.last false (.cons (.cls true [.chr 44] false) (.plus .greedy) (.nil false)))) .once (.nil false))))))

-- the conditions hold of it; a failed and a successful match
example : lastWritten.ok = true ∧ lastWritten.groupsLast = true ∧ lastWritten.tame false false 1 = true ∧
    lastWritten.spell = str "(?:key|k)=(\\d+(x)|-)|at ([^,]+)" := by decide
example : (compile (str "(?:key|k)=(\\d+(x)|-)|at ([^,]+)")).map (fun t => construct (lit "key=12y") t 9) =
    some (.ok { start := 7, pos := 7, groups := [none, none, none], accepted := false }) := by decide +kernel
example : m "(?:key|k)=(\\d+(x)|-)|at ([^,]+)" "key=12x" = some [some "key=12x", some "12x", some "x", some ""] := by decide +kernel
-- the refuted patterns do not meet it
example : (Alts.last false (.cons (.chr 120) .once (.cons (.group true (.last false (.cons (.chr 97) .once (.nil false)))) .once
    (.cons (.chr 98) .once (.nil false))))).groupsLast = false := by decide

end ERegex.Props

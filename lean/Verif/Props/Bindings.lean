import Verif.Proofs.Lone
import Verif.Props.Numbering
import Verif.Conformance
/-!
# C64: `result.get<N>()` and structured bindings

`auto [whole, first, second] = result;` and `result.get<N>()` are the compile-time checked ways to read a result.
-/
set_option autoImplicit false
namespace ERegex.Props
open ERegex ERegex.Spec
open ERegex.Conformance (lit m)

theorem hasGroups_of {t : Node} (h : 0 < groupsOf t) : hasGroups t = true := by
  cases t <;> first | rfl | (simp [groupsOf] at h)

theorem mapM_all {α β : Type} (f : α → Option β) (g : α → β) : ∀ (l : List α), (∀ a ∈ l, f a = some (g a)) → l.mapM f = some (l.map g)
  | [], _ => by simp
  | a :: l, h => by
    rw [List.mapM_cons, h a (by simp), mapM_all f g l (fun b hb => h b (by simp [hb]))]
    simp

theorem bindings_eq {t : Node} (st : St) (h : hasGroups t = true) :
    bindings t st = some ((List.range (groupsOf t + 1)).map (getGroup st)) := by
  rw [bindings, if_pos h]
  refine mapM_all _ _ _ fun k hk => ?_
  rw [getStatic, if_pos (by simp only [h, Bool.true_and, decide_eq_true_eq]; have := List.mem_range.1 hk; omega)]

/-- **C64.** Every well-formed pattern with a capturing group, every result of it that a program can obtain: a structured binding of the result
has one name more than the pattern has groups; the first one is the text of the whole match, the others are `result[1]`, `result[2]`, …, and none
of them reads outside the result. -/
theorem C64_structured_bindings_partial (as : Alts) (hok : as.ok = true) (hg : as.groups ≠ []) (t : Node) (h : compile as.spell = some t) (cx : Ctx)
    (st : St) (hr : Reach cx t st) :
    ∃ rest : List View, rest.length = as.groups.length ∧ bindings t st = some (some (toView st) :: rest.map some) ∧
      ∀ k v, rest[k]? = some v → getGroup st (k + 1) = some v := by
  have hl := reach_len hr
  have e : as.groups.length = groupsOf t := by
    rw [groups_slots, slots_written hok h, ← captures_contents as]; simp
  have hpos : 0 < groupsOf t := by rw [← e]; exact List.length_pos_iff.2 hg
  refine ⟨st.groups, by rw [hl, e], ?_, fun k v hk => by simpa [getGroup] using hk⟩
  rw [bindings_eq st (hasGroups_of hpos), ← hl]
  congr 1
  refine List.ext_getElem? fun k => ?_
  cases k with
  | zero => simp [getGroup]
  | succ k =>
    rw [List.getElem?_cons_succ, List.getElem?_map, List.getElem?_map]
    by_cases hk : k < st.groups.length
    · rw [List.getElem?_range (by omega)]
      simp [getGroup, hk]
    · rw [List.getElem?_eq_none (by simp; omega), List.getElem?_eq_none (by omega)]; rfl

/-- **C64.** For those patterns `result.get<k>()` compiles exactly for the numbers of the groups and 0, and gives what `result[k]` gives. -/
theorem C64_get_partial (as : Alts) (hok : as.ok = true) (hg : as.groups ≠ []) (t : Node) (h : compile as.spell = some t) (cx : Ctx) (st : St)
    (hr : Reach cx t st) (k : Nat) :
    (k ≤ as.groups.length → ∃ v, getStatic t st k = some (some v) ∧ getGroup st k = some v) ∧
    (as.groups.length < k → getStatic t st k = none) := by
  have e : as.groups.length = groupsOf t := by
    rw [groups_slots, slots_written hok h, ← captures_contents as]; simp
  have hpos : 0 < groupsOf t := by rw [← e]; exact List.length_pos_iff.2 hg
  have hh := hasGroups_of hpos
  obtain ⟨t', h', h9⟩ := C09_written as hok
  obtain rfl : t' = t := Option.some.inj (h'.symm.trans h)
  refine ⟨fun hk => ?_, fun hk => ?_⟩
  · obtain ⟨v, hv⟩ := (h9 cx st hr k).2 hk
    refine ⟨v, ?_, hv⟩
    rw [getStatic, if_pos (by simp [hh]; omega), hv]
  · rw [getStatic, if_neg (by simp [hh]; omega)]

theorem lone_written {as : Alts} (hok : as.ok = true) {t : Node} (h : compile as.spell = some t) : hasGroups t = !as.lone := by
  obtain ⟨b, h1, h2⟩ := compile_split h
  rw [build_tree as hok] at h1; cases h1
  rw [stable_groups (optFix_stable _ _ _ h2)]
  obtain ⟨k, rfl⟩ := optimize_rounds h2
  rw [rounds_lone, tree_lone hok]

/-- **C64, exact.** For every well-formed pattern and every result of it: if the pattern is not a lone character, escape, class of one item or anchor,
`result.get<k>()` compiles exactly for 0 and the numbers of the groups, and gives what `result[k]` gives; a structured binding has one name more than
the pattern has groups, and its names are `result[0]`, `result[1]`, …; if the pattern is of that kind, neither compiles. -/
theorem C64_exact (as : Alts) (hok : as.ok = true) (t : Node) (h : compile as.spell = some t) (cx : Ctx) (st : St) (hr : Reach cx t st) :
    (as.lone = false →
      (∀ k, k ≤ as.groups.length → ∃ v, getStatic t st k = some (some v) ∧ getGroup st k = some v) ∧
      (∀ k, as.groups.length < k → getStatic t st k = none) ∧
      ∃ views : List View, views.length = as.groups.length + 1 ∧ bindings t st = some (views.map some) ∧
        ∀ k v, views[k]? = some v → getGroup st k = some v) ∧
    (as.lone = true → (∀ k, getStatic t st k = none) ∧ bindings t st = none) := by
  have hh := lone_written hok h
  have hl := reach_len hr
  have e : as.groups.length = groupsOf t := by
    rw [groups_slots, slots_written hok h, ← captures_contents as]; simp
  have hin : ∀ k, k ≤ groupsOf t → ∃ v, getGroup st k = some v := fun k hk => by
    rw [getGroup]
    split
    · exact ⟨_, rfl⟩
    · exact ⟨st.groups[k - 1]'(by omega), by rw [List.getElem?_eq_getElem]⟩
  refine ⟨fun hlo => ?_, fun hlo => ?_⟩
  · rw [hlo] at hh
    refine ⟨fun k hk => ?_, fun k hk => ?_, ?_⟩
    · obtain ⟨v, hv⟩ := hin k (by omega)
      exact ⟨v, by rw [getStatic, if_pos (by simp [hh]; omega), hv], hv⟩
    · rw [getStatic, if_neg (by simp [hh]; omega)]
    · refine ⟨toView st :: st.groups, by simp; omega, ?_, fun k v hk => ?_⟩
      · rw [bindings_eq st (by simpa using hh), ← hl]
        congr 1
        refine List.ext_getElem? fun k => ?_
        cases k with
        | zero => simp [getGroup]
        | succ k =>
          rw [List.map_cons, List.getElem?_cons_succ, List.getElem?_map, List.getElem?_map]
          by_cases hk : k < st.groups.length
          · rw [List.getElem?_range (by omega)]
            simp [getGroup, hk]
          · rw [List.getElem?_eq_none (by simp; omega), List.getElem?_eq_none (by omega)]; rfl
      · cases k with
        | zero => simpa [getGroup] using hk
        | succ k => simpa [getGroup] using hk
  · rw [hlo] at hh
    have hn : ∀ k, getStatic t st k = none := fun k => by rw [getStatic, if_neg (by simp [hh])]
    exact ⟨hn, by simp [bindings, hh]⟩

/-- **C64.** Whatever the pattern: an index that compiles never reads outside the result. -/
theorem C64_get_inside (p : List Int) (t : Node) (_h : compile p = some t) (cx : Ctx) (st : St) (hr : Reach cx t st) (k : Nat) (r : Option View)
    (hk : getStatic t st k = some r) : ∃ v, r = some v ∧ getGroup st k = some v := by
  have hl := reach_len hr
  rw [getStatic] at hk
  split at hk
  · rename_i hc
    simp only [Bool.and_eq_true, decide_eq_true_eq] at hc
    obtain rfl := Option.some.inj hk
    rw [getGroup]
    split
    · exact ⟨_, rfl, rfl⟩
    · exact ⟨st.groups[k - 1], by rw [List.getElem?_eq_getElem], by rw [List.getElem?_eq_getElem]⟩
  · simp at hk

/-- **C64 refuted without groups.** For a pattern that is a single character or character class the result has no `get<0>()` and cannot be
decomposed: `a`, `\d`, `[x]`, `(?:b)`, `^`; `ab` can. -/
theorem C64_refuted_single_terminal :
    (∀ p ∈ [str "a", str "\\d", str "[x]", str "(?:b)", str "^", str "\\x41"], ∃ t, compile p = some t ∧
      ∀ st, getStatic t st 0 = none ∧ bindings t st = none) ∧
    (∃ t, compile (str "ab") = some t ∧ ∀ st, getStatic t st 0 = some (some (toView st)) ∧ bindings t st = some [some (toView st)]) := by
  refine ⟨?_, _, rfl, fun st => ⟨rfl, rfl⟩⟩
  intro p hp
  simp only [List.mem_cons, List.mem_nil_iff, or_false] at hp
  rcases hp with rfl | rfl | rfl | rfl | rfl | rfl <;> exact ⟨_, rfl, fun st => ⟨rfl, rfl⟩⟩

-- what counts as lone
example : (Alts.last false (.cons (.group false (.last false (.cons (.cls false [.esc 100] false) .once (.nil false)))) .once (.nil false))).lone = true ∧
    (Alts.last true (.nil false)).lone = true ∧ (Alts.last false (.cons (.chr 97) (.plus .greedy) (.nil false))).lone = false ∧
    (Alts.last false (.cons (.cls true [.esc 100] false) .once (.nil false))).lone = false := by decide +kernel
-- `(\w+)=(\d*)`: three names
def keyValue : Alts :=
  .last false (.cons (.group true (.last false (.cons (.esc 119) (.plus .greedy) (.nil false)))) .once (.cons (.chr 61) .once
    (.cons (.group true (.last false (.cons (.esc 100) (.star .greedy) (.nil false)))) .once (.nil false))))
example : keyValue.spell = str "(\\w+)=(\\d*)" ∧ keyValue.ok = true ∧ keyValue.groups ≠ [] := by
  refine ⟨by decide +kernel, by decide +kernel, by simp [keyValue, Alts.groups, Sq.groups, Atom.groups]⟩
example : ∃ t st, compile (str "(\\w+)=(\\d*)") = some t ∧ construct (lit "; ab=12") t 20 = .ok st ∧
    bindings t st = some [some (some (2, 7)), some (some (2, 4)), some (some (5, 7))] :=
  ⟨_, { start := 2, pos := 7, groups := [some (2, 4), some (5, 7)], accepted := true }, rfl, by decide +kernel, by decide +kernel⟩

end ERegex.Props

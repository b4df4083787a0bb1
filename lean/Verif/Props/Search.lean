import Verif.Proofs.Forward
import Verif.Props.Groups
/-!
# C18, C19, C21, C31, C32, C35, C36 : memory safety, search and termination

Memory is a context `⟨pre, query, post⟩`: the readable bytes before the query, the query view, the readable bytes after it.
Reading anything else is undefined behaviour (outcome `.ub`).  `Reach cx t st` (Proofs/Search.lean): `st` is a result that a
program can hold, i.e. constructed from the query and advanced by any number of `next()`.  Fuel is the number of iterations
the search loop is given; `.timeout` means that it had not finished.
-/
set_option autoImplicit false
namespace ERegex.Props
open ERegex ERegex.Spec

/-! ## C18 -/

/-- The query alone: no other byte is readable. -/
def bare (q : List Int) : Ctx := { pre := [], query := q, post := [] }
/-- A NUL-terminated query: besides the query only the NUL is readable. -/
def cstr (q : List Int) : Ctx := { pre := [], query := q, post := [0] }

theorem compile_safeTree {p : List Int} {t : Node} (h : compile p = some t) {nul : Bool} (hs : safe nul t = true) {cx : Ctx}
    (hnul : nul = true → cx.post.head? = some 0) : SafeTree cx t := safeTree hnul hs (C10_slots_in_array p t h)

theorem not_ub_of_good {o : Outcome} {P : St → Prop} {Q : Prop} (h : (∃ st, o = .ok st ∧ P st) ∨ (o = .timeout ∧ Q)) :
    o ≠ .ub ∧ o.defined = true := by
  rcases h with ⟨st, e, _⟩ | ⟨e, _⟩ <;> rw [e] <;> simp [Outcome.defined]

/-- Results are the same in a smaller memory in which nothing is undefined. -/
theorem reach_le {a b : Ctx} (H : a.Le b) {t : Node} (hsafe : SafeTree a t) {st : St} (h : Reach b t st) : Reach a t st := by
  induction h with
  | @make f st e =>
    refine .make (fuel := f) ?_
    rw [← construct_le H t f (not_ub_of_good (construct_good hsafe f)).2]; exact e
  | @next f st st' _ e ih =>
    refine .next ih (fuel := f) ?_
    have hp := inv_pos (reach_inv hsafe ih)
    rw [← next_le H t f st (not_ub_of_good (next_good hsafe f st hp.1 hp.2)).2]; exact e

/-- Views inside the query. -/
def InsideQuery (q : List Int) (v : View) : Prop :=
  ∀ b e, v = some (b, e) → 0 ≤ b ∧ b ≤ q.length ∧ 0 ≤ e ∧ e ≤ q.length

theorem inv_inside {cx : Ctx} {n : Nat} {st : St} (h : Inv cx n st) (k : Nat) (v : View) (hg : getGroup st k = some v) :
    InsideQuery cx.query v := by
  intro b e he
  subst he
  unfold getGroup at hg
  split at hg
  · simp only [toView] at hg
    split at hg
    · rename_i ha
      simp at hg
      have := h.acc ha
      have := h.start
      simp only [Ctx.qend] at *
      omega
    · simp at hg
  · have hm := List.mem_of_getElem? hg
    have := h.views _ hm b e rfl
    simp only [Ctx.qend] at this
    omega

/-- **C18 (partial).** For every pattern whose compiled tree is `safe` (no `$`, no multi-byte `\x{}`/`\o{}` string, `[^…]`
only over plain single-character items, no greedy optional of fixed width 2 or more), every query and whatever memory
surrounds it: matching the query and advancing the result any number of times has no undefined behaviour and gives exactly
what it gives when no byte outside the query is readable; and every view returned (`result[k]`, `k = 0` being the whole match)
lies inside the query.  Missing: the other patterns, for which the claim is false of the code (refutations below). -/
theorem C18_stays_inside_partial (p : List Int) (t : Node) (h : compile p = some t) (hs : safe false t = true) (cx : Ctx) :
    (∀ fuel, construct cx t fuel = construct (bare cx.query) t fuel ∧ construct cx t fuel ≠ .ub) ∧
    (∀ st, Reach cx t st →
      (∀ fuel, next cx t fuel st = next (bare cx.query) t fuel st ∧ next cx t fuel st ≠ .ub) ∧
      (∀ k v, getGroup st k = some v → InsideQuery cx.query v)) := by
  have hle : (bare cx.query).Le cx := ctx_bare_le cx
  have hsafe : SafeTree (bare cx.query) t := compile_safeTree h hs (by simp)
  have hsafe' : SafeTree cx t := compile_safeTree h hs (by simp)
  refine ⟨?_, ?_⟩
  · intro fuel
    have hd := not_ub_of_good (construct_good hsafe fuel)
    have e := construct_le hle t fuel hd.2
    exact ⟨e, by rw [e]; exact hd.1⟩
  · intro st hr
    have hi := reach_inv hsafe (reach_le hle hsafe hr)
    have hp := inv_pos hi
    refine ⟨?_, fun k v hv => inv_inside hi k v hv⟩
    intro fuel
    have hd := not_ub_of_good (next_good hsafe fuel st hp.1 hp.2)
    have e := next_le hle t fuel st hd.2
    exact ⟨e, by rw [e]; exact hd.1⟩

-- patterns of the README and of the tests that satisfy the hypothesis
example : (["\\w+", "a(?:a(b))cd", "[\\w.\\-]+@[\\w\\-]+\\.[\\w.]+", "(\\d+)-(\\d+)-(\\d+)", "a[^a-fh]+", "\"(.*)\"",
    "a|bc|cd|d", "^a", "(a{1,}?)a", "[\\w.]?x", "\\x41"].all
      (fun p => ((compile (str p)).map (safe false)).getD false)) = true := by decide +kernel

/-- **C18, refuted.** `$` at the end of the query reads the byte after it: undefined behaviour if it is not readable, and if
it is a newline the match extends over it, outside the query. -/
theorem C18_refuted_end_anchor : ∃ t, compile (str "a$") = some t ∧
    construct (bare (str "a")) t 9 = .ub ∧
    construct { pre := [], query := str "a", post := [10] } t 9 = .ok { start := 0, pos := 2, groups := [], accepted := true } :=
  ⟨_, rfl, by decide +kernel⟩

/-- **C18, refuted.** A multi-byte escape compares bytes beyond the end of the query. -/
theorem C18_refuted_hex_string : ∃ t, compile (str "\\x{4141}") = some t ∧
    construct (bare (str "A")) t 9 = .ub ∧
    construct { pre := [], query := str "A", post := [65] } t 9 = .ok { start := 0, pos := 2, groups := [], accepted := true } :=
  ⟨_, rfl, by decide +kernel⟩

/-- **C18, refuted.** `[^\s]` returns a view one longer than the query. -/
theorem C18_refuted_negated_space : ∃ t, compile (str "[^\\s]") = some t ∧
    construct (bare (str "x")) t 9 = .ok { start := 0, pos := 2, groups := [], accepted := true } := ⟨_, rfl, by decide +kernel⟩

/-- **C18, refuted.** An optional group of width 3 reads before the query. -/
theorem C18_refuted_wide_optional : ∃ t, compile (str "x(?:aaa)?a") = some t ∧
    construct (bare (str "xb")) t 9 = .ub ∧
    construct { pre := str "aaa", query := str "xb", post := [] } t 9 =
      .ok { start := 0, pos := -1, groups := [], accepted := true } := ⟨_, rfl, by decide +kernel⟩

/-! ## C19 -/

/-- **C19 (partial).** If a NUL byte follows the query, then also with `$` and with multi-byte escapes (without NUL in them)
nothing beyond that NUL is read, the result does not depend on what follows it, and every view lies inside the query.
Missing: `[^…]` over `\s` or strings, and wide optionals, for which the claim is false. -/
theorem C19_stays_inside_nul_partial (p : List Int) (t : Node) (h : compile p = some t) (hs : safe true t = true) (cx : Ctx)
    (hnul : cx.post.head? = some 0) :
    (∀ fuel, construct cx t fuel = construct (cstr cx.query) t fuel ∧ construct cx t fuel ≠ .ub) ∧
    (∀ st, Reach cx t st →
      (∀ fuel, next cx t fuel st = next (cstr cx.query) t fuel st ∧ next cx t fuel st ≠ .ub) ∧
      (∀ k v, getGroup st k = some v → InsideQuery cx.query v)) := by
  have hle : (cstr cx.query).Le cx := ctx_nul_le cx 0 hnul
  have hsafe : SafeTree (cstr cx.query) t := compile_safeTree h hs (by simp [cstr])
  refine ⟨?_, ?_⟩
  · intro fuel
    have hd := not_ub_of_good (construct_good hsafe fuel)
    have e := construct_le hle t fuel hd.2
    exact ⟨e, by rw [e]; exact hd.1⟩
  · intro st hr
    have hi := reach_inv hsafe (reach_le hle hsafe hr)
    have hp := inv_pos hi
    refine ⟨?_, fun k v hv => inv_inside hi k v hv⟩
    intro fuel
    have hd := not_ub_of_good (next_good hsafe fuel st hp.1 hp.2)
    have e := next_le hle t fuel st hd.2
    exact ⟨e, by rw [e]; exact hd.1⟩

example : (["a$", "a\\x{414141}", "a\\o{101101101}", "^\\d+$", "(ab|c)$"].all
      (fun p => ((compile (str p)).map (safe true)).getD false)) = true := by decide +kernel
-- the NUL matters: the same pattern is not `safe` without it
example : ((compile (str "a$")).map (safe false)) = some false := by decide +kernel

/-- **C19, refuted.** Also with the NUL `[^\s]` returns a view that contains it. -/
theorem C19_refuted_negated_space : ∃ t, compile (str "[^\\s]") = some t ∧
    construct (cstr (str "x")) t 9 = .ok { start := 0, pos := 2, groups := [], accepted := true } := ⟨_, rfl, by decide +kernel⟩

/-- **C19, refuted.** A multi-byte escape that contains a NUL matches the terminator. -/
theorem C19_refuted_nul_escape : ∃ t, compile (str "\\x{4100}") = some t ∧
    construct (cstr (str "A")) t 9 = .ok { start := 0, pos := 2, groups := [], accepted := true } := ⟨_, rfl, by decide +kernel⟩

/-! ## C21 -/

/-- **C21.** A match attempt of any tree, on any query, from any state, changes neither where the reported match begins nor
the number of capture slots. -/
theorem C21_attempt_keeps_start (cx : Ctx) (t : Node) (st st' : St) (h : run cx t [] st = some st') :
    st'.start = st.start ∧ st'.groups.length = st.groups.length :=
  ⟨run_start cx t st st' h, run_groups_length cx t st st' h⟩

/-- **C21.** Slots that no group of the tree owns keep their content. -/
theorem C21_attempt_keeps_other_slots (cx : Ctx) (t : Node) (st st' : St) (h : run cx t [] st = some st') (j : Nat)
    (hj : j ∉ slots t) : st'.groups[j]? = st.groups[j]? := run_groups_frame cx t st st' h j hj

-- an attempt that changes everything else
example : ∃ t, compile (str "(a)b") = some t ∧
    run (bare (str "xab")) t [] { start := 1, pos := 1, groups := [none], accepted := true } =
      some { start := 1, pos := 3, groups := [some (1, 2)], accepted := true } := ⟨_, rfl, by decide +kernel⟩

/-! ## C31 -/

/-- `later st st'`: `st'` is obtained from `st` by one or more `next()`. -/
inductive Later (cx : Ctx) (t : Node) (st : St) : St → Prop
  | one {fuel : Nat} {st' : St} : next cx t fuel st = .ok st' → Later cx t st st'
  | more {fuel : Nat} {st' st'' : St} : Later cx t st st' → next cx t fuel st' = .ok st'' → Later cx t st st''

/-- The patterns for which the search only goes forward: those of C18/C19, or those without a fixed-width greedy optional. -/
def Orderly (cx : Ctx) (t : Node) : Prop :=
  safe false t = true ∨ (safe true t = true ∧ cx.post.head? = some 0) ∨ forward t = true

/-- One `next()` of an orderly tree. -/
theorem next_orderly {p : List Int} {t : Node} (h : compile p = some t) {cx : Ctx} (ho : Orderly cx t) {st : St}
    (hr : Reach cx t st) (fuel : Nat) : next cx t fuel st = .ub ∨
    (∃ st', next cx t fuel st = .ok st' ∧ st.pos ≤ st'.start ∧ st'.start ≤ st'.pos) ∨
    (next cx t fuel st = .timeout ∧ (fuel : Int) < cx.qend - st.pos) := by
  have key : SafeTree cx t → next cx t fuel st = .ub ∨
    (∃ st', next cx t fuel st = .ok st' ∧ st.pos ≤ st'.start ∧ st'.start ≤ st'.pos) ∨
    (next cx t fuel st = .timeout ∧ (fuel : Int) < cx.qend - st.pos) := by
    intro hsafe
    have hp := inv_pos (reach_inv hsafe hr)
    rcases next_good hsafe fuel st hp.1 hp.2 with ⟨st', e, hf⟩ | h'
    · right; left
      refine ⟨st', e, hf.from_le, ?_⟩
      cases ha : st'.accepted with
      | true => have := hf.acc ha; omega
      | false => have := hf.rej ha; omega
    · right; right; exact h'
  rcases ho with hs | ⟨hs, hn⟩ | hf
  · exact key (compile_safeTree h hs (by simp))
  · exact key (compile_safeTree h hs (fun _ => hn))
  · rcases next_fwd hf fuel st with e | ⟨st', e, h'⟩ | h'
    · left; exact e
    · right; left; exact ⟨st', e, h'.2.1, h'.2.2.1⟩
    · right; right; exact h'

/-- **C31 (partial).** For every orderly pattern, every result that a program can hold and every result obtained from it by one
or more `next()`: the later match begins at or after the end of the earlier one (and ends at or after its own beginning).
Missing: patterns with wide fixed-width optionals, for which the claim is false. -/
theorem C31_ordered_disjoint_partial (p : List Int) (t : Node) (h : compile p = some t) (cx : Ctx) (ho : Orderly cx t)
    (st st' : St) (hr : Reach cx t st) (hl : Later cx t st st') : st.pos ≤ st'.start ∧ st'.start ≤ st'.pos := by
  have key : Reach cx t st' ∧ st.pos ≤ st'.start ∧ st'.start ≤ st'.pos := by
    induction hl with
    | @one f st1 e =>
      refine ⟨.next hr e, ?_⟩
      rcases next_orderly h ho hr f with e' | ⟨s, e', hs⟩ | ⟨e', _⟩
      · rw [e] at e'; cases e'
      · rw [e] at e'; cases e'; exact hs
      · rw [e] at e'; cases e'
    | @more f st1 st2 _ e ih =>
      refine ⟨.next ih.1 e, ?_⟩
      rcases next_orderly h ho ih.1 f with e' | ⟨s, e', hs⟩ | ⟨e', _⟩
      · rw [e] at e'; cases e'
      · rw [e] at e'; cases e'; exact ⟨by omega, hs.2⟩
      · rw [e] at e'; cases e'
  exact key.2

-- the hypotheses are met: two matches, the second behind the first
example : ∃ t st st', compile (str "ab") = some t ∧ Orderly (bare (str "abaab")) t ∧
    construct (bare (str "abaab")) t 9 = .ok st ∧ Later (bare (str "abaab")) t st st' ∧
    toView st = some (0, 2) ∧ toView st' = some (3, 5) :=
  ⟨_, { start := 0, pos := 2, groups := [], accepted := true }, { start := 3, pos := 5, groups := [], accepted := true }, rfl,
    Or.inl (by decide +kernel), by decide +kernel, .one (fuel := 9) (by decide +kernel), by decide +kernel, by decide +kernel⟩

/-- **C31, refuted.** With a wide optional the next match can begin inside the previous one: on `efghyax` the first match is
`[0,4)` and `next()` returns `[3,4)`. -/
theorem C31_refuted_wide_optional : ∃ t, compile (str "(?:abbb)?a{2}c|efgh|h") = some t ∧
    construct (bare (str "efghyax")) t 9 = .ok { start := 0, pos := 4, groups := [], accepted := true } ∧
    next (bare (str "efghyax")) t 9 { start := 0, pos := 4, groups := [], accepted := true } =
      .ok { start := 3, pos := 4, groups := [], accepted := true } := ⟨_, rfl, by decide +kernel⟩

/-! ## C32 -/

/-- **C32 (partial).** For every orderly pattern the search loop of the constructor and of every later `next()` finishes
within as many iterations as the query has characters.  Missing: patterns with wide fixed-width optionals, where the loop can
run forever. -/
theorem C32_terminates_partial (p : List Int) (t : Node) (h : compile p = some t) (cx : Ctx) (ho : Orderly cx t) (fuel : Nat)
    (hf : cx.query.length ≤ fuel) :
    construct cx t fuel ≠ .timeout ∧ ∀ st, Reach cx t st → next cx t fuel st ≠ .timeout := by
  have hq : cx.qend = (cx.query.length : Int) := rfl
  have key : ∀ hsafe : SafeTree cx t, construct cx t fuel ≠ .timeout ∧ ∀ st, Reach cx t st → next cx t fuel st ≠ .timeout := by
    intro hsafe
    refine ⟨?_, ?_⟩
    · rcases construct_good hsafe fuel with ⟨st', e, _⟩ | ⟨_, h'⟩
      · rw [e]; simp
      · omega
    · intro st hr
      have hp := inv_pos (reach_inv hsafe hr)
      rcases next_good hsafe fuel st hp.1 hp.2 with ⟨st', e, _⟩ | ⟨_, h'⟩
      · rw [e]; simp
      · omega
  rcases ho with hs | ⟨hs, hn⟩ | hfw
  · exact key (compile_safeTree h hs (by simp))
  · exact key (compile_safeTree h hs (fun _ => hn))
  · refine ⟨?_, ?_⟩
    · rcases construct_fwd (cx := cx) hfw fuel with e | ⟨st', e, _⟩ | ⟨_, h'⟩
      · rw [e]; simp
      · rw [e]; simp
      · omega
    · intro st hr
      have hp : 0 ≤ st.pos := by
        clear hf
        induction hr with
        | @make f st e =>
          rcases construct_fwd (cx := cx) hfw f with e' | ⟨st', e', h'⟩ | ⟨e', _⟩
          · rw [e] at e'; cases e'
          · rw [e] at e'; cases e'; omega
          · rw [e] at e'; cases e'
        | @next f st st' _ e ih =>
          rcases next_fwd (cx := cx) hfw f st with e' | ⟨s, e', h'⟩ | ⟨e', _⟩
          · rw [e] at e'; cases e'
          · rw [e] at e'; cases e'; omega
          · rw [e] at e'; cases e'
      rcases next_fwd (cx := cx) hfw fuel st with e | ⟨st', e, _⟩ | ⟨_, h'⟩
      · rw [e]; simp
      · rw [e]; simp
      · omega

-- both kinds of hypothesis, and the bound is reached: no match on a query of length 3 needs 3 iterations, 2 are not enough
example : ∃ t, compile (str "a") = some t ∧ Orderly (bare (str "xxx")) t ∧ construct (bare (str "xxx")) t 2 = .timeout ∧
    construct (bare (str "xxx")) t 3 ≠ .timeout := ⟨_, rfl, Or.inl (by decide +kernel), by decide +kernel, by decide +kernel⟩
example : (["\\x{4141}a", "[^\\s]*b", "(a|bc)$"].all (fun p => ((compile (str p)).map forward).getD false)) = true := by
  decide +kernel

theorem nextLoop_step {cx : Ctx} {m : K} {st st1 : St} (hlt : st.start < cx.qend) (hrun : m st = some st1)
    (hrej : st1.accepted = false)
    (hrest : ∀ f, nextLoop cx m f { st1 with start := st1.pos + 1, pos := st1.pos + 1 } = .timeout) :
    ∀ f, nextLoop cx m f st = .timeout := by
  intro f
  cases f with
  | zero => simp [nextLoop, hlt]
  | succ f =>
    simp only [nextLoop, hlt, if_true, hrun]
    rw [if_neg (by simp [hrej])]
    exact hrest f

theorem nextLoop_cycle {cx : Ctx} {m : K} {st st1 : St} (hlt : st.start < cx.qend) (hrun : m st = some st1)
    (hrej : st1.accepted = false) (hcyc : ({ st1 with start := st1.pos + 1, pos := st1.pos + 1 } : St) = st) :
    ∀ f, nextLoop cx m f st = .timeout := by
  intro f
  induction f with
  | zero => simp [nextLoop, hlt]
  | succ f ih =>
    simp only [nextLoop, hlt, if_true, hrun]
    rw [if_neg (by simp [hrej]), hcyc]
    exact ih

/-- **C32, refuted.** Matching `(?:ab)?a{2}c` on `zaxxx` never finishes, however many iterations are allowed. -/
theorem C32_refuted_hang : ∃ t, compile (str "(?:ab)?a{2}c") = some t ∧
    ∀ fuel, construct (bare (str "zaxxx")) t fuel = .timeout := by
  refine ⟨.greedy (.simple (.exact [97] [97]) [.exact [98] [98]]) 0 1 [.repeated (.exact [97] [97]) 2 [.exact [99] [99]]],
    by decide +kernel, ?_⟩
  generalize ht : (.greedy (.simple (.exact [97] [97]) [.exact [98] [98]]) 0 1
    [.repeated (.exact [97] [97]) 2 [.exact [99] [99]]] : Node) = t
  have e0 : run (bare (str "zaxxx")) t [] (initSt t) = some { start := 0, pos := 0, groups := [], accepted := false } := by
    subst ht; decide +kernel
  have e0' : run (bare (str "zaxxx")) t [] { start := 0, pos := 0, groups := [], accepted := false } =
      some { start := 0, pos := 0, groups := [], accepted := false } := by subst ht; decide +kernel
  have e1 : run (bare (str "zaxxx")) t [] { start := 1, pos := 1, groups := [], accepted := false } =
      some { start := 1, pos := 0, groups := [], accepted := false } := by subst ht; decide +kernel
  have hg : groupsOf t = 0 := by subst ht; rfl
  intro fuel
  simp only [construct, e0, Bool.false_eq_true, if_false, next, hg, List.replicate]
  exact nextLoop_step (by decide) e0' rfl (nextLoop_cycle (by decide) e1 rfl rfl) fuel

/-! ## C35 -/

/-- **C35 (partial).** If a result is not accepted then `to_view()` and `result[0]` are the empty view, and for a pattern without
capturing groups there is no other group.  Missing: the groups of patterns with groups, for which the claim is false. -/
theorem C35_failed_is_empty_partial (p : List Int) (t : Node) (h : compile p = some t) (cx : Ctx) (st : St)
    (hr : Reach cx t st) (ha : st.accepted = false) (hg : groupsOf t = 0) :
    toView st = none ∧ ∀ k v, getGroup st k = some v → v = none := by
  have hv : toView st = none := by simp [toView, ha]
  refine ⟨hv, ?_⟩
  have hlen : st.groups.length = 0 := by
    rw [← hg]
    cases hr with
    | make e => exact C09_result_slots cx t _ st e
    | next _ e => rw [nextLoop_len _ _ _ e]; simp
  intro k v hk
  unfold getGroup at hk
  split at hk
  · rw [hv] at hk; exact (Option.some.inj hk).symm
  · rw [List.eq_nil_of_length_eq_zero hlen] at hk; simp at hk

-- a failed match of a group-free pattern
example : ∃ t st, compile (str "ab+") = some t ∧ groupsOf t = 0 ∧ construct (bare (str "xxa")) t 9 = .ok st ∧ st.accepted = false :=
  ⟨_, { start := 3, pos := 3, groups := [], accepted := false }, rfl, by decide +kernel, by decide +kernel, rfl⟩

/-- **C35, refuted.** `x(a)b` does not match `xac`, yet `result[1]` is the text `a`: the capture of the failed attempt. -/
theorem C35_refuted_stale_capture : ∃ t st, compile (str "x(a)b") = some t ∧ construct (bare (str "xac")) t 9 = .ok st ∧
    st.accepted = false ∧ getGroup st 1 = some (some (1, 2)) :=
  ⟨_, { start := 3, pos := 3, groups := [some (1, 2)], accepted := false }, rfl, by decide +kernel, rfl, by decide +kernel⟩

/-! ## C36 -/

/-- **C36 (partial).** For every safe pattern (C18) every group of every reachable result lies inside the query; the groups of a
result of `next()` begin and end at or behind the position where that search began; and if the pattern has no fixed-width
greedy optional, every group ends at or behind its beginning.  Missing: the other patterns (false of the code), and containment
in the reported match (false of the code). -/
theorem C36_groups_inside_partial (p : List Int) (t : Node) (h : compile p = some t) (hs : safe false t = true) (cx : Ctx)
    (st : St) (hr : Reach cx t st) :
    (∀ v ∈ st.groups, InsideQuery cx.query v) ∧
    (∀ fuel st', next cx t fuel st = .ok st' → ∀ b e, some (b, e) ∈ st'.groups → st.pos ≤ b ∧ st.pos ≤ e) ∧
    (forward t = true → ∀ b e, some (b, e) ∈ st.groups → b ≤ e) := by
  have hsafe : SafeTree cx t := compile_safeTree h hs (by simp)
  have hi := reach_inv hsafe hr
  refine ⟨?_, ?_, ?_⟩
  · intro v hv b e he
    have := hi.views v hv b e he
    simp only [Ctx.qend] at this
    omega
  · intro fuel st' hn b e hbe
    have hp := inv_pos hi
    rcases next_good hsafe fuel st hp.1 hp.2 with ⟨s, e', hf⟩ | ⟨e', _⟩
    · rw [hn] at e'; cases e'
      have := hf.views _ hbe b e rfl
      omega
    · rw [hn] at e'; cases e'
  · intro hfw
    cases hr with
    | @make f _ e =>
      rcases construct_fwd (cx := cx) hfw f with e' | ⟨s, e', hs⟩ | ⟨e', _⟩
      · rw [e] at e'; cases e'
      · rw [e] at e'; cases e'; exact hs.1
      · rw [e] at e'; cases e'
    | @next f st0 _ _ e =>
      rcases next_fwd (cx := cx) hfw f st0 with e' | ⟨s, e', hs⟩ | ⟨e', _⟩
      · rw [e] at e'; cases e'
      · rw [e] at e'; cases e'; exact hs.1
      · rw [e] at e'; cases e'

example : ∃ t st, compile (str "a(b|c)d") = some t ∧ safe false t = true ∧ forward t = true ∧
    construct (bare (str "abacd")) t 9 = .ok st ∧ st.groups = [some (3, 4)] :=
  ⟨_, { start := 2, pos := 5, groups := [some (3, 4)], accepted := true }, rfl, by decide +kernel, by decide +kernel,
    by decide +kernel, rfl⟩

/-- **C36, refuted (inside the reported match).** On `xac` the pattern `x(a)b|c` reports the match `[2,3)` with the group
`[1,2)`. -/
theorem C36_refuted_outside_match : ∃ t, compile (str "x(a)b|c") = some t ∧
    construct (bare (str "xac")) t 9 = .ok { start := 2, pos := 3, groups := [some (1, 2)], accepted := true } :=
  ⟨_, rfl, by decide +kernel⟩

/-- **C36, refuted (ordered).** With a greedy optional of width 1 a group can have a negative length: on `cab` the pattern
`ca([ca]?[ca]?c)` reports the match `[0,1)` and the group from 2 to 1. -/
theorem C36_refuted_negative_length : ∃ t, compile (str "ca([ca]?[ca]?c)") = some t ∧ safe false t = true ∧
    construct (bare (str "cab")) t 9 = .ok { start := 0, pos := 1, groups := [some (2, 1)], accepted := true } :=
  ⟨_, rfl, by decide +kernel⟩

end ERegex.Props

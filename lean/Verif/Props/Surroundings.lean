import Verif.Props.Search
/-!
# C56 : the memory around the query

`⟨pre, query, post⟩` is a memory: the readable bytes in front of the query, the query, the readable bytes behind it.
-/
set_option autoImplicit false
namespace ERegex.Props
open ERegex ERegex.Spec
open ERegex.Conformance (lit m)

/-- The query in a memory in which less is readable around it. -/
theorem within_le (pre pre' q post post' : List Int) : (Ctx.mk pre q post).Le ⟨pre' ++ pre, q, post ++ post'⟩ := by
  refine ⟨rfl, fun p c h => ?_⟩
  simp only [Ctx.read, List.length_append] at h ⊢
  split at h
  · simp at h
  · rename_i hp
    rw [if_neg (by omega)]
    have e : (p + ((pre'.length + pre.length : Nat) : Int)).toNat = pre'.length + (p + (pre.length : Int)).toNat := by omega
    rw [e, List.append_assoc, List.append_assoc, List.getElem?_append_right (by omega), Nat.add_sub_cancel_left]
    have hlt : (p + (pre.length : Int)).toNat < (pre ++ q ++ post).length := by
      rcases Nat.lt_or_ge (p + (pre.length : Int)).toNat (pre ++ q ++ post).length with h' | h'
      · exact h'
      · rw [List.getElem?_eq_none h'] at h; simp at h
    have : pre ++ (q ++ (post ++ post')) = (pre ++ q ++ post) ++ post' := by simp
    rw [this, List.getElem?_append_left hlt]
    exact h

/-- **C56.** For every pattern, query and surroundings: what lies further away in memory has no influence.  If matching (with `next()`,
or a range-for) has no undefined behaviour when only `pre` in front of the query and `post` behind it are readable, it gives the same
result in every larger memory.  In particular (`pre`, `post` empty) a match that reads only the query depends only on the query. -/
theorem C56_surroundings (p : List Int) (t : Node) (_h : compile p = some t) (pre q post : List Int) :
    (∀ fuel, construct ⟨pre, q, post⟩ t fuel ≠ .ub → ∀ pre' post', construct ⟨pre' ++ pre, q, post ++ post'⟩ t fuel = construct ⟨pre, q, post⟩ t fuel) ∧
    (∀ fuel st, next ⟨pre, q, post⟩ t fuel st ≠ .ub → ∀ pre' post', next ⟨pre' ++ pre, q, post ++ post'⟩ t fuel st = next ⟨pre, q, post⟩ t fuel st) ∧
    (∀ fuel n r vs, rangeFor ⟨pre, q, post⟩ t fuel n r = some vs → ∀ pre' post', rangeFor ⟨pre' ++ pre, q, post ++ post'⟩ t fuel n r = some vs) := by
  have hd : ∀ o : Outcome, o ≠ .ub → o.defined = true := fun o ho => by cases o <;> simp_all [Outcome.defined]
  have hc : ∀ fuel, construct ⟨pre, q, post⟩ t fuel ≠ .ub → ∀ pre' post', construct ⟨pre' ++ pre, q, post ++ post'⟩ t fuel = construct ⟨pre, q, post⟩ t fuel :=
    fun fuel hu pre' post' => construct_le (within_le pre pre' q post post') t fuel (hd _ hu)
  have hn : ∀ fuel st, next ⟨pre, q, post⟩ t fuel st ≠ .ub → ∀ pre' post', next ⟨pre' ++ pre, q, post ++ post'⟩ t fuel st = next ⟨pre, q, post⟩ t fuel st :=
    fun fuel st hu pre' post' => next_le (within_le pre pre' q post post') t fuel st (hd _ hu)
  refine ⟨hc, hn, fun fuel n r vs hv pre' post' => ?_⟩
  have visits : ∀ (en : St) (n : Nat) (it : St) vs, visit ⟨pre, q, post⟩ t fuel en n it = some vs → visit ⟨pre' ++ pre, q, post ++ post'⟩ t fuel en n it = some vs := by
    intro en n
    induction n with
    | zero => intro it vs h; exact h
    | succ n ih =>
      intro it vs h
      simp only [visit] at h ⊢
      split at h
      · rename_i hne
        rw [if_pos hne]
        cases hx : next ⟨pre, q, post⟩ t fuel it with
        | ub => rw [hx] at h; simp at h
        | timeout => rw [hx] at h; simp at h
        | ok x =>
          rw [hn fuel it (by rw [hx]; simp), hx]
          rw [hx] at h
          simp only [Option.map_eq_some_iff] at h ⊢
          obtain ⟨z, hz, rfl⟩ := h
          exact ⟨z, ih x z hz, rfl⟩
      · rename_i hne
        rw [if_neg hne]; exact h
  simp only [rangeFor, beginR] at hv ⊢
  cases hx : construct ⟨pre, q, post⟩ t fuel with
  | ub => rw [hx] at hv; simp at hv
  | timeout => rw [hx] at hv; simp at hv
  | ok x =>
    rw [hc fuel (by rw [hx]; simp), hx]
    rw [hx] at hv
    exact visits _ n x vs hv

-- a pattern with `$`, a NUL behind the query: defined, and hence the same whatever follows the NUL
example : ∃ t, compile (str "a$") = some t ∧ construct ⟨[], str "xa", [0]⟩ t 9 = .ok { start := 1, pos := 2, groups := [], accepted := true } ∧
    construct ⟨str "aa", str "xa", [0, 97, 97]⟩ t 9 = .ok { start := 1, pos := 2, groups := [], accepted := true } := ⟨_, rfl, by decide +kernel⟩
-- without undefined behaviour on the query alone
example : ∃ t, compile (str "\\d+-") = some t ∧ construct ⟨[], str "x12-", []⟩ t 9 ≠ .ub := ⟨_, rfl, by decide +kernel⟩

end ERegex.Props

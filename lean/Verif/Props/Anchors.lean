import Verif.Proofs.AnchorParse
import Verif.Props.Search
/-!
# C28, C29 : anchors
-/
set_option autoImplicit false
namespace ERegex.Props
open ERegex ERegex.Spec
open ERegex.Conformance (lit m)

/-! ## C28 -/

/-- Every top-level alternative of the pattern begins with `^`, and that `^` is not quantified.  (`splitT 124` cuts a token
sequence at its top-level `|`: C05.) -/
def StartsWithCaret (p : List Int) : Prop := ∃ ts, tokenize p = some ts ∧
  ∀ a ∈ splitT 124 ts, a.head? = some [94] ∧ a[1]?.getD [] ∉ ([[42], [43], [63], [123]] : List (List Int))

theorem starts_anchored {p : List Int} {t : Node} (h : compile p = some t) (hc : StartsWithCaret p) : anchored t = true := by
  obtain ⟨ts, ht, ha⟩ := hc
  refine compile_anchored ht h ?_
  intro a hm
  obtain ⟨h1, h2⟩ := ha a hm
  obtain ⟨rest, rfl⟩ : ∃ rest, a = [94] :: rest := by
    cases a with
    | nil => simp at h1
    | cons x r => simp at h1; exact ⟨r, by rw [h1]⟩
  refine ⟨rest, rfl, ?_⟩
  rintro x tl rfl
  have := h2
  simp only [List.getElem?_cons_succ, List.getElem?_cons_zero, Option.getD_some] at this
  simp only [List.mem_cons, List.not_mem_nil, or_false, not_or] at this
  simp [quantTok, this]

/-- **C28.** For every pattern each of whose top-level alternatives begins with `^`, every query, whatever surrounds it, and
every history of `next()` calls: an accepted match begins at the first character of the query. -/
theorem C28_caret_anchors (p : List Int) (t : Node) (h : compile p = some t) (hc : StartsWithCaret p) (cx : Ctx) (st : St)
    (hr : Reach cx t st) (ha : st.accepted = true) : st.start = 0 ∧ ∃ e, toView st = some (0, e) := by
  have h0 := reach_anchored (starts_anchored h hc) hr ha
  exact ⟨h0, st.pos, by simp [toView, ha, h0]⟩

/-- **C28.** Away from the start of the query a match attempt of such a pattern fails and changes nothing but the flag. -/
theorem C28_refuses_elsewhere (p : List Int) (t : Node) (h : compile p = some t) (hc : StartsWithCaret p) (cx : Ctx) (st : St)
    (hp : st.pos ≠ 0) : run cx t [] st = some { st with accepted := false } :=
  run_refuses cx t (starts_anchored h hc) [] st hp

/-- **C28.** The same for every tree in which every path goes through `^` first, e.g. `(^a|^b)c`, `(?:^x)+y`. -/
theorem C28_anchored_tree (t : Node) (h : anchored t = true) (cx : Ctx) (st : St) (hr : Reach cx t st)
    (ha : st.accepted = true) : st.start = 0 := reach_anchored h hr ha

-- the hypothesis is met by `^a+|^b` (two alternatives), and both a match and a refusal occur
example : StartsWithCaret (str "^a+|^b") := 
  ⟨[[94], [97], [43], [124], [94], [98]], by decide +kernel, by decide +kernel⟩
example : m "^a+|^b" "aab" = some [some "aa"] ∧ m "^a+|^b" "xaab" = none ∧ m "^a+|^b" "bb" = some [some "b"] := by decide +kernel
example : ((compile (str "(^a|^b)c")).map anchored) = some true := by decide +kernel

/-- **C28, refuted.** `^` does not match at the start of a line (README: "start of line"), … -/
theorem C28_refuted_line : m "^a" "x\na" = none := by decide +kernel

/-- **C28, refuted.** … nor on the empty query, although the empty string starts there. -/
theorem C28_refuted_empty : m "^" "" = none ∧ m "^a*" "" = none ∧ m "a*" "" = some [some ""] := by decide +kernel

/-- **C28, refuted.** Without parentheses only the first alternative is anchored. -/
theorem C28_refuted_alternative : m "^a|b" "xb" = some [some "b"] := by decide +kernel

/-! ## C29 -/

/-- Every top-level alternative of the pattern ends with `$`. -/
def EndsWithDollar (p : List Int) : Prop := ∃ ts, tokenize p = some ts ∧ ∀ a ∈ splitT 124 ts, a.getLast? = some [36]

/-- **C29.** For every pattern each of whose top-level alternatives ends with `$`, every query, whatever surrounds it, and
every history of `next()` calls: an accepted match ends at the end of the query, or its last character is a newline. -/
theorem C29_dollar_anchors (p : List Int) (t : Node) (h : compile p = some t) (hd : EndsWithDollar p) (cx : Ctx) (st : St)
    (hr : Reach cx t st) (ha : st.accepted = true) : st.pos = cx.qend ∨ cx.read (st.pos - 1) = some 10 := by
  obtain ⟨ts, ht, hl⟩ := hd
  exact reach_end (compile_ended ht h hl) hr ha

theorem read_cstr (q : List Int) (p : Int) : (cstr q).read p = if p < 0 then none else (q ++ [0])[p.toNat]? := by
  simp [Ctx.read, cstr]

/-- **C29.** If the query is followed by a NUL and the pattern meets the condition of C19, "the end of the query or directly
after a newline of the query". -/
theorem C29_dollar_anchors_nul (p : List Int) (t : Node) (h : compile p = some t) (hd : EndsWithDollar p)
    (hs : safe true t = true) (cx : Ctx) (hnul : cx.post.head? = some 0) (st : St) (hr : Reach cx t st)
    (ha : st.accepted = true) :
    st.pos = cx.query.length ∨ ∃ k : Nat, st.pos = k + 1 ∧ cx.query[k]? = some 10 := by
  have hle : (cstr cx.query).Le cx := ctx_nul_le cx 0 hnul
  have hsafe : SafeTree (cstr cx.query) t := compile_safeTree h hs (by simp [cstr])
  have hr' := reach_le hle hsafe hr
  have hi := reach_inv hsafe hr'
  have hacc := hi.acc ha
  have hst := hi.start
  rcases C29_dollar_anchors p t h hd (cstr cx.query) st hr' ha with h1 | h1
  · exact Or.inl h1
  · by_cases hq : st.pos = cx.query.length
    · exact Or.inl hq
    · right
      simp only [Ctx.qend, cstr] at hacc
      rw [read_cstr] at h1
      split at h1
      · simp at h1
      · rename_i hge
        refine ⟨(st.pos - 1).toNat, by omega, ?_⟩
        rw [List.getElem?_append_left (by omega)] at h1
        exact h1

-- the hypotheses are met by `a+$|b$`; matches at the end of the query and at a newline
example : EndsWithDollar (str "a+$|b$") :=
  ⟨[[97], [43], [36], [124], [98], [36]], by decide +kernel, by decide +kernel⟩
example : m "a+$|b$" "xaa" = some [some "aa"] ∧ m "a+$|b$" "b\nx" = some [some "b\n"] ∧ m "a+$|b$" "ax" = none ∧
    ((compile (str "a+$|b$")).map (safe true)) = some true := by decide +kernel

/-- **C29, refuted.** `$` is not zero-width before a newline: it consumes the newline, which becomes part of the reported match,
so that a following `\n` of the pattern cannot match it. -/
theorem C29_refuted_zero_width : m "a$" "a\n" = some [some "a\n"] ∧ m "(a$)\\n" "a\n" = none := by decide +kernel

end ERegex.Props

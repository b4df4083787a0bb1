import Verif.Proofs.Groups
/-!
# Group indices of patterns whose groups are flat
-/
set_option autoImplicit false
namespace ERegex
open Spec

/-- Between two `(` there is a `)`. -/
def FlatParens (ts : List (List Int)) : Prop :=
  ∀ a b c : List (List Int), ts = a ++ [40] :: (b ++ [40] :: c) → [41] ∈ b

theorem FlatParens.suffix {u ts : List (List Int)} (h : FlatParens (u ++ ts)) : FlatParens ts := by
  intro a b c e
  exact h (u ++ a) b c (by rw [e]; simp)

theorem flat_content {c rest : List (List Int)} (h : FlatParens ([40] :: (c ++ [41] :: rest)))
    (hp : PrefixOk 40 41 0 c) : [40] ∉ c := by
  intro hm
  obtain ⟨x, y, e, hx⟩ := List.append_of_mem hm |> fun ⟨s, t, e⟩ => (⟨s, t, e, trivial⟩ : ∃ x y, c = x ++ [40] :: y ∧ True)
  -- first occurrence
  have key : ∀ n (x y : List (List Int)), x.length ≤ n → c = x ++ [40] :: y → False := by
    intro n
    induction n with
    | zero =>
      intro x y hl e
      have : x = [] := List.length_eq_zero_iff.1 (by omega)
      subst this
      have := h [] [] (y ++ [41] :: rest) (by rw [e]; simp)
      simp at this
    | succ n ih =>
      intro x y hl e
      by_cases hx : [40] ∈ x
      · obtain ⟨s, t, e'⟩ := List.append_of_mem hx
        refine ih s (t ++ [40] :: y) ?_ (by rw [e, e']; simp)
        rw [e'] at hl; simp at hl; omega
      · have h41 := h [] x (y ++ [41] :: rest) (by rw [e]; simp)
        have hd := hp x ([40] :: y) e
        have h0 : x.count [40] = 0 := List.count_eq_zero.2 hx
        have h1 : 0 < x.count [41] := List.count_pos_iff.2 h41
        simp only [depth] at hd
        omega
  exact key _ x y (Nat.le_refl _) e

theorem classify_capture_shape {b : Bool} {ts c r : List (List Int)} (h : classify b ts = .capture c r) :
    ∃ tl, ts = [40] :: tl ∧ extractT 40 41 tl = some (c, r) := by
  revert h
  unfold classify
  split <;> (try (intro e; cases e; done))
  all_goals try (split <;> (try (intro e; cases e; done)))
  all_goals try (split <;> (try (intro e; cases e; done)))
  all_goals try (split <;> (try (intro e; cases e; done)))
  all_goals try (split <;> (try (intro e; cases e; done)))
  all_goals (intro e; cases e; exact ⟨_, rfl, by assumption⟩)

theorem classify_reset_shape {b : Bool} {ts r : List (List Int)} {n : Node} (h : classify b ts = .node n true r) :
    [91] ∈ ts := by
  revert h
  unfold classify
  split <;> (try (intro e; cases e; done))
  all_goals try (split <;> (try (intro e; cases e; done)))
  all_goals try (split <;> (try (intro e; cases e; done)))
  all_goals try (split <;> (try (intro e; cases e; done)))
  all_goals try (split <;> (try (intro e; cases e; done)))
  all_goals (intro _; simp)

theorem captures_no_paren : ∀ (ts : List (List Int)) (md : Mode), [40] ∉ ts → captures md ts = 0 := by
  intro ts
  induction ts with
  | nil => intro md _; cases md <;> rfl
  | cons t ts ih =>
    intro md h
    simp only [List.mem_cons, not_or] at h
    cases md with
    | normal =>
      simp only [captures]
      rw [if_neg (fun e => h.1 e.symm), ih _ h.2, ih _ h.2, ih _ h.2]
      simp
    | inside op cl d =>
      simp only [captures]
      rw [ih _ h.2, ih _ h.2, ih _ h.2, ih _ h.2]
      simp

/-- Tokens without classes and without `(?:`, whose groups are not nested. -/
structure FlatGroups (ts : List (List Int)) : Prop where
  noclass : [91] ∉ ts
  nonon : ∀ a b : List (List Int), ts ≠ a ++ [40] :: [63] :: [58] :: b
  flat : FlatParens ts

theorem FlatGroups.suffix {u ts : List (List Int)} (h : FlatGroups (u ++ ts)) : FlatGroups ts :=
  ⟨fun hm => h.noclass (by simp [hm]), fun a b e => h.nonon (u ++ a) b (by rw [e]; simp), h.flat.suffix⟩

theorem range'_cons (s n : Nat) : List.range' s (n + 1) = s :: List.range' (s + 1) n := by
  simp [List.range'_succ]

theorem helper_flat : ∀ (f : Nat) (last : Option Node) (ts : List (List Int)) (gi : Nat) (t : Node),
    FlatGroups ts → helper f last ts gi = some t → ∃ n, slots t = slotsO last ++ List.range' gi n := by
  intro f
  induction f with
  | zero => intro last ts gi t _ h; simp [helper] at h
  | succ f ih =>
    intro last ts gi t hf h
    have hr := classify_reads last.isNone ts
    simp only [helper] at h
    split at h <;> rename_i hc <;> rw [hc] at hr <;> simp only [Step.reads] at hr
    · subst h; exact ⟨0, by simp [slotsO]⟩
    · simp at h
    · exact ⟨0, by rw [addChild_slots h]; simp [slots, slotss]⟩
    · obtain ⟨u, hu, _⟩ := hr
      obtain ⟨n, h1⟩ := ih _ _ _ _ (by rw [hu] at hf; exact hf.suffix) h
      have hl : slotsO last = [] := by
        cases last with
        | none => rfl
        | some l =>
          exfalso
          revert hc
          unfold classify
          split <;> (try (intro e; cases e; done))
          all_goals try (split <;> (try (intro e; cases e; done)))
          all_goals try (split <;> (try (intro e; cases e; done)))
          all_goals try (split <;> (try (intro e; cases e; done)))
          all_goals try (split <;> (try (intro e; cases e; done)))
          all_goals simp_all
      exact ⟨n, by rw [h1, hl]; simp [slotsO, slots, slotss]⟩
    · cases last with
      | none => simp at h
      | some m =>
        simp only at h
        obtain ⟨n, hq, hh⟩ := Option.bind_eq_some_iff.1 h
        obtain ⟨⟨u, hu, _⟩, hs⟩ := hr m n hq
        obtain ⟨k, h1⟩ := ih _ _ _ _ (by rw [hu] at hf; exact hf.suffix) hh
        exact ⟨k, by rw [h1]; simp [slotsO, hs]⟩
    · rename_i n reset rest
      obtain ⟨⟨u, hu, _⟩, hs, hn⟩ := hr
      obtain ⟨t', h1, h2⟩ := Option.bind_eq_some_iff.1 h
      have hreset : reset = false := by
        cases reset with
        | false => rfl
        | true => exact absurd (classify_reset_shape hc) hf.noclass
      subst hreset
      obtain ⟨k, h3⟩ := ih _ _ _ _ (by rw [hu] at hf; exact hf.suffix) h1
      exact ⟨k, by rw [addChild_slots h2, h3]; simp [slotsO, hs]⟩
    · rename_i c rest
      obtain ⟨bs, h1, h2⟩ := Option.bind_eq_some_iff.1 h
      obtain ⟨t', h3, h4⟩ := Option.bind_eq_some_iff.1 h2
      obtain ⟨tl, e1, e2⟩ := classify_capture_shape hc
      rcases extract_cases (by decide) e2 with ⟨e3, _, hp⟩ | ⟨rfl, rfl⟩
      · subst e3
        subst e1
        have hno := flat_content hf.flat hp
        obtain ⟨b1, _, _⟩ := buildAll_built (gi := gi + 1)
          (fun b t hb => by obtain ⟨new, e1, e2⟩ := helper_built _ _ _ _ _ hb; simp [slotsO] at e1; rw [e1]; exact e2)
          _ _ (splitT_ne_nil _) h1
        rw [splitT_joins] at b1
        have hz : slotss bs = [] := by
          have := b1.toNat
          rw [captures_no_paren _ _ hno] at this
          exact List.length_eq_zero_iff.1 this.symm
        obtain ⟨k, h5⟩ := ih _ rest _ _
          (by
            have : ([40] :: (c ++ [41] :: rest) : List (List Int)) = ([40] :: (c ++ [[41]])) ++ rest := by simp
            rw [this] at hf; exact hf.suffix) h3
        refine ⟨k + 1, ?_⟩
        rw [addChild_slots h4, h5, range'_cons]
        simp [slotsO, slots, slotss, hz]
      · exfalso
        cases f with
        | zero => simp [splitT, splitAux, reverseT, reverseAux, buildAll, helper] at h1
        | succ f => simp [splitT, splitAux, reverseT, reverseAux, buildAll, helper, classify] at h1
    · rename_i c rest
      rcases hr with hts | ⟨rfl, rfl⟩
      · exact absurd hts (hf.nonon [] _)
      · exfalso
        obtain ⟨bs, h1, h2⟩ := Option.bind_eq_some_iff.1 h
        cases f with
        | zero => simp [splitT, splitAux, reverseT, reverseAux, buildAll, helper] at h1
        | succ f => simp [splitT, splitAux, reverseT, reverseAux, buildAll, helper, classify] at h1

theorem splitAux_open (sep : Int) : ∀ (ts cur : List (List Int)) (done : List (List (List Int))),
    (∀ a b, cur ++ ts = a ++ [sep] :: b → 1 ≤ depth 40 41 a ∨ a.length < cur.length) →
    splitAux sep ts cur done = reverseT ((cur ++ ts) :: done) := by
  intro ts
  induction ts with
  | nil => intro cur done _; simp [splitAux]
  | cons t ts ih =>
    intro cur done h
    simp only [splitAux]
    have step : splitAux sep ts (cur ++ [t]) done = reverseT ((cur ++ t :: ts) :: done) := by
      rw [ih (cur ++ [t]) done ?_]
      · simp
      · intro a b e
        rcases h a b (by simpa using e) with h1 | h1
        · exact Or.inl h1
        · right; simp; omega
    by_cases hts : t = [sep]
    · have hb : balancedV cur = false := by
        cases hbal : balancedV cur with
        | false => rfl
        | true =>
          exfalso
          rw [balancedV_iff] at hbal
          have h1 := h cur ts (by rw [hts])
          have h2 : ∀ w : List (List Int), OpenersClosed w → depth 40 41 w ≤ 0 := by
            intro w hw
            induction hw with
            | nil => simp [depth]
            | @skip t ts ht _ ih =>
              have := ht _ _ .round
              simp only [depth, List.count_cons] at ih ⊢
              have e : (t == [40]) = false := by simpa using this
              simp only [e, Bool.false_eq_true, if_false]
              by_cases h41 : (t == [41]) = true
              · simp only [h41, if_true]; omega
              · simp only [h41, Bool.false_eq_true, if_false]; omega
            | @pair o c a b hb _ _ ih1 ih2 =>
              simp only [depth, List.count_cons, List.count_append] at ih1 ih2 ⊢
              cases hb <;> simp <;> omega
          have := h2 cur hbal
          rcases h1 with h1 | h1 <;> omega
      simp only [hts, hb]
      rw [hts] at step
      simpa using step
    · simp only [hts]
      simpa using step

/-- A separator that only occurs inside open parentheses is never a cut. -/
theorem splitT_single (sep : Int) (ts : List (List Int)) (h : ∀ a b, ts = a ++ [sep] :: b → 1 ≤ depth 40 41 a) :
    splitT sep ts = [ts] := by
  rw [splitT, splitAux_open sep ts [] [] (fun a b e => Or.inl (h a b (by simpa using e)))]
  simp [reverseT_eq]

theorem build_flat {p : List Int} {ts : List (List Int)} {t : Node} (h : build p = some t) (ht : tokenize p = some ts)
    (hf : FlatGroups ts) (hbar : ∀ a b, ts = a ++ [124] :: b → 1 ≤ depth 40 41 a) :
    slots t = List.range (slots t).length := by
  unfold build at h
  rw [ht] at h
  simp only [Option.map_eq_some_iff] at h
  obtain ⟨bs, h1, h2⟩ := h
  subst h2
  rw [splitT_single 124 ts hbar] at h1
  simp only [topBranches] at h1
  split at h1
  · simp at h1
  · rename_i t ht'
    simp at h1
    subst h1
    obtain ⟨n, hn⟩ := helper_flat _ _ _ _ _ hf ht'
    simp [slots, slotss, hn, slotsO, List.range_eq_range']

end ERegex

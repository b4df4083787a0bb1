import Verif.Model.Tokenizer
import Verif.Spec.Front
set_option autoImplicit false
namespace ERegex
open Spec

/-- Result of the brace scanner, described by the text it consumed. -/
inductive BraceRes : BraceState → List Ch → List Tok → List Ch → Prop
  | f1 {cur u rem} : 125 ∉ u → 44 ∉ u → BraceRes (.first cur) (u ++ 125 :: rem) [[123], cur ++ u, [125]] rem
  | f2 {cur u rem} : 125 ∉ u → 44 ∉ u →
      BraceRes (.first cur) (u ++ 44 :: 125 :: rem) [[123], cur ++ u, [44], [125]] rem
  | f3 {cur u b rem} : 125 ∉ u → 44 ∉ u → b ≠ [] → 125 ∉ b →
      BraceRes (.first cur) (u ++ 44 :: (b ++ 125 :: rem)) [[123], cur ++ u, [44], b, [125]] rem
  | c2 {a rem} : BraceRes (.comma a) (125 :: rem) [[123], a, [44], [125]] rem
  | c3 {a b rem} : b ≠ [] → 125 ∉ b → BraceRes (.comma a) (b ++ 125 :: rem) [[123], a, [44], b, [125]] rem
  | s3 {a cur b rem} : 125 ∉ b → BraceRes (.second a cur) (b ++ 125 :: rem) [[123], a, [44], cur ++ b, [125]] rem

theorem str_open : str "{" = [123] := by decide
theorem str_close : str "}" = [125] := by decide
theorem str_comma : str "," = [44] := by decide

theorem extractBraces_sound : ∀ (p : List Ch) (s : BraceState) (ts : List Tok) (rem : List Ch),
    extractBraces s p = some (ts, rem) → BraceRes s p ts rem := by
  intro p
  induction p with
  | nil => intro s ts rem h; cases s <;> simp [extractBraces] at h
  | cons c tl ih =>
    intro s ts rem h
    cases s with
    | first cur =>
      simp only [extractBraces] at h
      split at h
      · simp only [Option.some.injEq, Prod.mk.injEq, str_open, str_close] at h
        obtain ⟨rfl, rfl⟩ := h
        subst_vars
        have := @BraceRes.f1 cur [] tl (by simp) (by simp)
        simpa using this
      · split at h
        · subst_vars
          have := ih _ _ _ h
          cases this with
          | c2 => simpa using @BraceRes.f2 cur [] rem (by simp) (by simp)
          | @c3 _ b _ h1 h2 => simpa using @BraceRes.f3 cur [] b rem (by simp) (by simp) h1 h2
        · rename_i hc1 hc2
          have := ih _ _ _ h
          cases this with
          | @f1 _ u _ h1 h2 =>
            have := @BraceRes.f1 cur (c :: u) rem (by simp; exact ⟨fun e => hc1 e.symm, h1⟩)
              (by simp; exact ⟨fun e => hc2 e.symm, h2⟩)
            simpa using this
          | @f2 _ u _ h1 h2 =>
            have := @BraceRes.f2 cur (c :: u) rem (by simp; exact ⟨fun e => hc1 e.symm, h1⟩)
              (by simp; exact ⟨fun e => hc2 e.symm, h2⟩)
            simpa using this
          | @f3 _ u b _ h1 h2 h3 h4 =>
            have := @BraceRes.f3 cur (c :: u) b rem (by simp; exact ⟨fun e => hc1 e.symm, h1⟩)
              (by simp; exact ⟨fun e => hc2 e.symm, h2⟩) h3 h4
            simpa using this
    | comma a =>
      simp only [extractBraces] at h
      split at h
      · simp only [Option.some.injEq, Prod.mk.injEq, str_open, str_close, str_comma] at h
        obtain ⟨rfl, rfl⟩ := h
        subst_vars
        exact .c2
      · rename_i hc1
        have := ih _ _ _ h
        cases this with
        | @s3 _ _ b _ h1 =>
          have := @BraceRes.c3 a (c :: b) rem (by simp) (by simp; exact ⟨fun e => hc1 e.symm, h1⟩)
          simpa using this
    | second a b =>
      simp only [extractBraces] at h
      split at h
      · simp only [Option.some.injEq, Prod.mk.injEq, str_open, str_close, str_comma] at h
        obtain ⟨rfl, rfl⟩ := h
        subst_vars
        simpa using @BraceRes.s3 a b [] tl (by simp)
      · rename_i hc1
        have := ih _ _ _ h
        cases this with
        | @s3 _ _ b' _ h1 =>
          have := @BraceRes.s3 a b (c :: b') rem (by simp; exact ⟨fun e => hc1 e.symm, h1⟩)
          simpa using this

theorem extractBraces_second : ∀ (b : List Ch) (a cur rem : List Ch), 125 ∉ b →
    extractBraces (.second a cur) (b ++ 125 :: rem) = some ([[123], a, [44], cur ++ b, [125]], rem) := by
  intro b
  induction b with
  | nil => intro a cur rem _; simp [extractBraces, str_open, str_close, str_comma]
  | cons x xs ih =>
    intro a cur rem h
    simp only [List.mem_cons, not_or] at h
    simp only [List.cons_append, extractBraces]
    rw [if_neg (fun e => h.1 e.symm), ih _ _ _ h.2]; simp

theorem extractBraces_comma_ne (b : List Ch) (a rem : List Ch) (hb : b ≠ []) (h : 125 ∉ b) :
    extractBraces (.comma a) (b ++ 125 :: rem) = some ([[123], a, [44], b, [125]], rem) := by
  cases b with
  | nil => exact absurd rfl hb
  | cons x xs =>
    simp only [List.mem_cons, not_or] at h
    simp only [List.cons_append, extractBraces]
    rw [if_neg (fun e => h.1 e.symm), extractBraces_second _ _ _ _ h.2]; simp

theorem extractBraces_first : ∀ (u : List Ch) (cur tl : List Ch), 125 ∉ u → 44 ∉ u →
    extractBraces (.first cur) (u ++ tl) = extractBraces (.first (cur ++ u)) tl := by
  intro u
  induction u with
  | nil => intro cur tl _ _; simp
  | cons x xs ih =>
    intro cur tl h1 h2
    simp only [List.mem_cons, not_or] at h1 h2
    simp only [List.cons_append]
    rw [extractBraces, if_neg (fun e => h1.1 e.symm), if_neg (fun e => h2.1 e.symm), ih _ _ h1.2 h2.2]
    simp

theorem extractBraces_f1 (a p : List Ch) (h1 : 125 ∉ a) (h2 : 44 ∉ a) :
    extractBraces (.first []) (a ++ 125 :: p) = some ([[123], a, [125]], p) := by
  rw [extractBraces_first _ _ _ h1 h2]; simp [extractBraces, str_open, str_close]

theorem extractBraces_f2 (a p : List Ch) (h1 : 125 ∉ a) (h2 : 44 ∉ a) :
    extractBraces (.first []) (a ++ 44 :: 125 :: p) = some ([[123], a, [44], [125]], p) := by
  rw [extractBraces_first _ _ _ h1 h2]; simp [extractBraces, str_open, str_close, str_comma]

theorem extractBraces_f3 (a b p : List Ch) (h1 : 125 ∉ a) (h2 : 44 ∉ a) (h3 : b ≠ []) (h4 : 125 ∉ b) :
    extractBraces (.first []) (a ++ 44 :: (b ++ 125 :: p)) = some ([[123], a, [44], b, [125]], p) := by
  rw [extractBraces_first _ _ _ h1 h2, List.nil_append, extractBraces, if_neg (by decide), if_pos rfl,
    extractBraces_comma_ne _ _ _ h3 h4]

/-- The consumed text: `123 :: u ++ 125 :: rem` -/
theorem extractBraces_split (p : List Ch) (r) (h : extractBraces (.first []) p = some r) :
    ∃ u, 125 ∉ u ∧ p = u ++ 125 :: r.2 := by
  have := extractBraces_sound p _ r.1 r.2 (by simpa using h)
  generalize r.2 = rem at *
  generalize r.1 = ts at *
  cases this with
  | @f1 _ u _ h1 h2 => exact ⟨u, h1, rfl⟩
  | @f2 _ u _ h1 h2 => exact ⟨u ++ [44], by simp [h1], by simp⟩
  | @f3 _ u b _ h1 h2 h3 h4 => exact ⟨u ++ 44 :: b, by simp [h1, h4], by simp⟩

theorem tokenizeAux_acc : ∀ (f : Nat) (cur : List Tok) (p : List Ch),
    tokenizeAux f cur p = (tokenizeAux f [] p).map (cur ++ ·) := by
  intro f
  induction f with
  | zero => intro cur p; cases p <;> simp [tokenizeAux]
  | succ f ih =>
    intro cur p
    cases p with
    | nil => simp [tokenizeAux]
    | cons c tl =>
      simp only [tokenizeAux, List.nil_append]
      split
      · cases tl with
        | nil => simp only; rw [ih, ih [[c]]]; cases tokenizeAux f [] [] <;> simp
        | cons d tl' => simp only; rw [ih, ih [[c, d]]]; cases tokenizeAux f [] tl' <;> simp
      · split
        · cases extractBraces (.first []) tl with
          | none => simp
          | some r => simp only; rw [ih, ih r.1]; cases tokenizeAux f [] r.2 <;> simp
        · rw [ih, ih [[c]]]; cases tokenizeAux f [] tl <;> simp

theorem tokenizeAux_sound : ∀ (f : Nat) (p : List Ch) (ts : List Tok),
    tokenizeAux f [] p = some ts → Tokens p ts := by
  intro f
  induction f with
  | zero =>
    intro p ts h
    cases p with
    | nil => simp [tokenizeAux] at h; subst h; exact .nil
    | cons c tl => simp [tokenizeAux] at h
  | succ f ih =>
    intro p ts h
    cases p with
    | nil => simp [tokenizeAux] at h; subst h; exact .nil
    | cons c tl =>
      simp only [tokenizeAux, List.nil_append] at h
      split at h
      · subst_vars
        cases tl with
        | nil =>
          simp only at h
          cases f <;> (simp [tokenizeAux] at h; subst h; exact .trailing)
        | cons d tl' =>
          simp only at h
          rw [tokenizeAux_acc] at h
          cases hh : tokenizeAux f [] tl' with
          | none => simp [hh] at h
          | some ts' => simp [hh] at h; subst h; exact .escaped (ih _ _ hh)
      · split at h
        · subst_vars
          cases he : extractBraces (.first []) tl with
          | none => simp [he] at h
          | some r =>
            simp only [he] at h
            rw [tokenizeAux_acc] at h
            cases hh : tokenizeAux f [] r.2 with
            | none => simp [hh] at h
            | some ts' =>
              simp [hh] at h; subst h
              have hr := extractBraces_sound tl _ r.1 r.2 (by simpa using he)
              generalize r.2 = rem at *
              generalize r.1 = ts at *
              cases hr with
              | f1 h1 h2 => exact .brace1 h1 h2 (ih _ _ hh)
              | f2 h1 h2 => exact .brace2 h1 h2 (ih _ _ hh)
              | f3 h1 h2 h3 h4 => exact .brace3 h1 h2 h3 h4 (ih _ _ hh)
        · rw [tokenizeAux_acc] at h
          cases hh : tokenizeAux f [] tl with
          | none => simp [hh] at h
          | some ts' => simp [hh] at h; subst h; exact .plain ‹_› ‹_› (ih _ _ hh)

theorem tokenizeAux_complete {p : List Ch} {ts : List Tok} (h : Tokens p ts) :
    ∀ f, p.length ≤ f → tokenizeAux f [] p = some ts := by
  induction h with
  | nil => intro f _; cases f <;> simp [tokenizeAux]
  | @plain c p ts h1 h2 _ ih =>
    intro f hf
    cases f with
    | zero => simp at hf
    | succ f =>
      simp only [tokenizeAux, List.nil_append]
      rw [if_neg h1, if_neg h2, tokenizeAux_acc, ih f (by simpa using hf)]; simp
  | @escaped c p ts _ ih =>
    intro f hf
    cases f with
    | zero => simp at hf
    | succ f =>
      simp only [tokenizeAux, List.nil_append, if_pos]
      rw [tokenizeAux_acc, ih f (by simp at hf; omega)]; simp
  | trailing =>
    intro f hf
    cases f with
    | zero => simp at hf
    | succ f => simp only [tokenizeAux, if_pos]; cases f <;> simp [tokenizeAux]
  | @brace1 a p ts h1 h2 _ ih =>
    intro f hf
    cases f with
    | zero => simp at hf
    | succ f =>
      simp only [tokenizeAux, List.nil_append]
      rw [if_neg (by decide), if_pos trivial, extractBraces_f1 _ _ h1 h2]
      simp only
      rw [tokenizeAux_acc, ih f (by simp at hf; omega)]; simp
  | @brace2 a p ts h1 h2 _ ih =>
    intro f hf
    cases f with
    | zero => simp at hf
    | succ f =>
      simp only [tokenizeAux, List.nil_append]
      rw [if_neg (by decide), if_pos trivial, extractBraces_f2 _ _ h1 h2]
      simp only
      rw [tokenizeAux_acc, ih f (by simp at hf; omega)]; simp
  | @brace3 a b p ts h1 h2 h3 h4 _ ih =>
    intro f hf
    cases f with
    | zero => simp at hf
    | succ f =>
      simp only [tokenizeAux, List.nil_append]
      rw [if_neg (by decide), if_pos trivial, extractBraces_f3 _ _ _ h1 h2 h3 h4]
      simp only
      rw [tokenizeAux_acc, ih f (by simp at hf; omega)]; simp

theorem tokenize_iff (p : List Ch) (ts : List Tok) : tokenize p = some ts ↔ Tokens p ts :=
  ⟨tokenizeAux_sound _ _ _, fun h => tokenizeAux_complete h _ (Nat.le_refl _)⟩

theorem tokens_flatten {p : List Ch} {ts : List Tok} (h : Tokens p ts) : ts.flatten = p := by
  induction h with
  | nil => rfl
  | plain _ _ _ ih => simp [ih]
  | escaped _ ih => simp [ih]
  | trailing => rfl
  | brace1 _ _ _ ih => simp [ih]
  | brace2 _ _ _ ih => simp [ih]
  | brace3 _ _ _ _ _ ih => simp [ih]

theorem tokens_closed {p : List Ch} {ts : List Tok} (h : Tokens p ts) : BracesClosed p := by
  induction h with
  | nil => exact .nil
  | plain a b _ ih => exact .plain a b ih
  | escaped _ ih => exact .escaped ih
  | trailing => exact .trailing
  | brace1 h1 h2 _ ih => exact .block h1 ih
  | @brace2 a p ts h1 h2 _ ih =>
    have := @BracesClosed.block (a ++ [44]) p (by simp [h1]) ih
    simpa using this
  | @brace3 a b p ts h1 h2 h3 h4 _ ih =>
    have := @BracesClosed.block (a ++ 44 :: b) p (by simp [h1, h4]) ih
    simpa using this

/-- Cut a block at its first comma. -/
theorem cut_comma (u : List Int) (h : 125 ∉ u) :
    (44 ∉ u) ∨ (∃ a, u = a ++ [44] ∧ 44 ∉ a ∧ 125 ∉ a) ∨
    ∃ a b, u = a ++ 44 :: b ∧ 44 ∉ a ∧ 125 ∉ a ∧ b ≠ [] ∧ 125 ∉ b := by
  induction u with
  | nil => left; simp
  | cons x xs ih =>
    simp only [List.mem_cons, not_or] at h
    by_cases hx : x = 44
    · subst hx
      right
      cases xs with
      | nil => left; exact ⟨[], rfl, by simp, by simp⟩
      | cons y ys => right; exact ⟨[], y :: ys, rfl, by simp, by simp, by simp, h.2⟩
    · rcases ih h.2 with h' | ⟨a, rfl, h1, h2⟩ | ⟨a, b, rfl, h1, h2, h3, h4⟩
      · left; simp [h']; exact fun e => hx e.symm
      · right; left
        exact ⟨x :: a, rfl, by simp [h1]; exact fun e => hx e.symm, by simp [h2]; exact h.1⟩
      · right; right
        exact ⟨x :: a, b, rfl, by simp [h1]; exact fun e => hx e.symm, by simp [h2]; exact h.1, h3, h4⟩

theorem closed_tokens {p : List Ch} (h : BracesClosed p) : ∃ ts, Tokens p ts := by
  induction h with
  | nil => exact ⟨_, .nil⟩
  | plain a b _ ih => obtain ⟨ts, ih⟩ := ih; exact ⟨_, .plain a b ih⟩
  | escaped _ ih => obtain ⟨ts, ih⟩ := ih; exact ⟨_, .escaped ih⟩
  | trailing => exact ⟨_, .trailing⟩
  | @block u p hu _ ih =>
    obtain ⟨ts, ih⟩ := ih
    rcases cut_comma u hu with h' | ⟨a, rfl, h1, h2⟩ | ⟨a, b, rfl, h1, h2, h3, h4⟩
    · exact ⟨_, .brace1 hu h' ih⟩
    · have := Tokens.brace2 h2 h1 ih
      exact ⟨_, by simpa using this⟩
    · have := Tokens.brace3 h2 h1 h3 h4 ih
      exact ⟨_, by simpa using this⟩

end ERegex

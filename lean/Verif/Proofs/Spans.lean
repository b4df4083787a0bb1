import Verif.Proofs.Ways
/-!
# The repetitions of a quantified group
-/
set_option autoImplicit false
namespace ERegex
open ERegex.Spec ERegex.Props

/-- Taking the preferred end of the body again and again, at most `f` times: the number of repetitions and the last one. -/
def chain (body : Nat → List Nat) : Nat → Nat × Nat → Nat × (Nat × Nat)
  | 0, p => (0, p)
  | f + 1, p =>
    match (body p.2).head? with
    | none => (0, p)
    | some e => ((chain body f (p.2, e)).1 + 1, (chain body f (p.2, e)).2)

/-- The body takes characters and stays inside the text. -/
structure Eats (len : Nat) (body : Nat → List Nat) : Prop where
  more : ∀ i e, e ∈ body i → i < e
  inside : ∀ i e, i ≤ len → e ∈ body i → e ≤ len

/-- An end of the body behind which `R` holds is the preferred one. -/
def Single (len : Nat) (body : Nat → List Nat) (R : Nat → Prop) : Prop := ∀ i e, i ≤ len → e ∈ body i → R e → (body i).head? = some e

theorem chain_le (body : Nat → List Nat) : ∀ (f : Nat) (p : Nat × Nat), (chain body f p).1 ≤ f
  | 0, p => Nat.le_refl _
  | f + 1, p => by
    simp only [chain]
    split
    · omega
    · rename_i e _; have := chain_le body f (p.2, e); simp only; omega

theorem chain_add (body : Nat → List Nat) (x : Nat) : ∀ (m : Nat) (p : Nat × Nat), (chain body m p).1 = m →
    chain body (m + x) p = (m + (chain body x (chain body m p).2).1, (chain body x (chain body m p).2).2)
  | 0, p, _ => by simp [chain]
  | m + 1, p, h => by
    rw [show m + 1 + x = (m + x) + 1 by omega]
    cases hh : (body p.2).head? with
    | none => simp [chain, hh] at h
    | some e =>
      have h' : (chain body m (p.2, e)).1 = m := by simpa [chain, hh] using h
      have := chain_add body x m (p.2, e) h'
      simp only [chain, hh, this]
      congr 1; omega

theorem chain_stop {len : Nat} {body : Nat → List Nat} (hb : Eats len body) : ∀ (f f' : Nat) (p : Nat × Nat), p.2 ≤ len → len - p.2 ≤ f → len - p.2 ≤ f' →
    chain body f p = chain body f' p := by
  have none : ∀ i, i = len → (body i).head? = none := by
    intro i hi
    cases hh : (body i).head? with
    | none => rfl
    | some e =>
      have he := List.mem_of_mem_head? hh
      have := hb.more i e he
      have := hb.inside i e (by omega) he
      omega
  intro f
  induction f with
  | zero =>
    intro f' p h1 h2 h3
    have := none p.2 (by omega)
    cases f' with
    | zero => rfl
    | succ f' => simp [chain, this]
  | succ f ih =>
    intro f' p h1 h2 h3
    cases f' with
    | zero => simp [chain, none p.2 (by omega)]
    | succ f' =>
      simp only [chain]
      cases hh : (body p.2).head? with
      | none => rfl
      | some e =>
        have he := List.mem_of_mem_head? hh
        have := hb.more _ _ he
        have := hb.inside _ _ h1 he
        simp only
        rw [ih f' (p.2, e) (by simpa using this) (by simp only; omega) (by simp only; omega)]

theorem manyS_ne (body : Nat → List Nat) (f : Nat) (p : Nat × Nat) : manyS body f p ≠ [] := by
  cases f <;> simp [manyS]

theorem flatMap_head {α β : Type} {x : α} {l : List α} {F : α → List β} (h : l.head? = some x) (hF : F x ≠ []) : (l.flatMap F).head? = (F x).head? := by
  cases l with
  | nil => simp at h
  | cons y l =>
    simp only [List.head?_cons, Option.some.injEq] at h
    subst h
    rw [List.flatMap_cons, List.head?_append]
    cases hx : F y with
    | nil => exact absurd hx hF
    | cons => rfl

theorem manyS_head (body : Nat → List Nat) : ∀ (f : Nat) (p : Nat × Nat), (manyS body f p).head? = some (chain body f p).2
  | 0, p => rfl
  | f + 1, p => by
    simp only [manyS, chain]
    cases hh : (body p.2).head? with
    | none => rw [List.head?_eq_none_iff] at hh; simp [hh]
    | some e =>
      have h1 := flatMap_head (F := fun e => manyS body f (p.2, e)) hh (manyS_ne _ _ _)
      rw [List.head?_append, h1, manyS_head body f (p.2, e)]
      rfl

theorem mustS_bound {len : Nat} {body : Nat → List Nat} (hb : Eats len body) : ∀ (m : Nat) (p r : Nat × Nat), p.2 ≤ len → r ∈ mustS body m p → r.2 ≤ len ∧ p.2 ≤ r.2
  | 0, p, r, h, hr => by simp [mustS] at hr; subst hr; exact ⟨h, Nat.le_refl _⟩
  | m + 1, p, r, h, hr => by
    simp only [mustS, List.mem_flatMap] at hr
    obtain ⟨e, he, hr⟩ := hr
    have h1 := hb.inside _ _ h he
    have h2 := hb.more _ _ he
    have h3 := mustS_bound hb m (p.2, e) r h1 hr
    simp only at h3
    exact ⟨h3.1, by omega⟩

theorem manyS_bound {len : Nat} {body : Nat → List Nat} (hb : Eats len body) : ∀ (m : Nat) (p r : Nat × Nat), p.2 ≤ len → r ∈ manyS body m p → r.2 ≤ len ∧ p.2 ≤ r.2
  | 0, p, r, h, hr => by simp [manyS] at hr; subst hr; exact ⟨h, Nat.le_refl _⟩
  | m + 1, p, r, h, hr => by
    simp only [manyS, List.mem_append, List.mem_flatMap, List.mem_singleton] at hr
    rcases hr with ⟨e, he, hr⟩ | rfl
    · have h1 := hb.inside _ _ h he
      have h2 := hb.more _ _ he
      have h3 := manyS_bound hb m (p.2, e) r h1 hr
      simp only at h3
      exact ⟨h3.1, by omega⟩
    · exact ⟨h, Nat.le_refl _⟩

theorem mustS_head {len : Nat} {body : Nat → List Nat} (hb : Eats len body) : ∀ (m : Nat) (p : Nat × Nat), p.2 ≤ len →
    (m ≤ 1 ∨ Single len body (fun e => body e ≠ [])) →
    (mustS body m p).head? = if (chain body m p).1 = m then some (chain body m p).2 else none
  | 0, p, _, _ => by simp [mustS, chain]
  | m + 1, p, hp, hs => by
    cases hh : (body p.2).head? with
    | none =>
      have hh' := List.head?_eq_none_iff.1 hh
      simp [mustS, chain, hh, hh']
    | some e =>
      simp only [mustS, chain, hh]
      have he := List.mem_of_mem_head? hh
      have ih := mustS_head hb m (p.2, e) (hb.inside _ _ hp he) (hs.imp (by omega) id)
      simp only [Nat.add_right_cancel_iff]
      by_cases hne : mustS body m (p.2, e) = []
      · have hnil : (body p.2).flatMap (fun e => mustS body m (p.2, e)) = [] := by
          rw [List.flatMap_eq_nil_iff]
          intro e' he'
          cases m with
          | zero => simp [mustS] at hne
          | succ m =>
            rcases hs with h | h
            · omega
            · cases hm : mustS body (m + 1) (p.2, e') with
              | nil => rfl
              | cons y l =>
                have hb' : body e' ≠ [] := by
                  intro hc; simp [mustS, hc] at hm
                have := h p.2 e' hp he' hb'
                rw [hh] at this; cases this
                rw [hm] at hne; cases hne
        rw [hnil]
        rw [hne] at ih
        split at ih
        · simp at ih
        · rename_i h; rw [if_neg h]; rfl
      · rw [flatMap_head (F := fun e => mustS body m (p.2, e)) hh hne, ih]

/-- The first of the list. -/
theorem spans_head {len : Nat} {body : Nat → List Nat} (hb : Eats len body) (k : Quant) {i : Nat} (hi : i ≤ len)
    (hs : k.lo ≤ 1 ∨ Single len body (fun e => body e ≠ [])) :
    (spans len k body i).head? = if (chain body k.lo (i, i)).1 = k.lo then some (chain body (k.lo + k.extra len) (i, i)).2 else none := by
  have most : ((mustS body k.lo (i, i)).flatMap (manyS body (k.extra len))).head? =
      if (chain body k.lo (i, i)).1 = k.lo then some (chain body (k.lo + k.extra len) (i, i)).2 else none := by
    have h1 := mustS_head hb k.lo (i, i) hi hs
    split at h1
    · rename_i hc
      rw [flatMap_head (F := manyS body (k.extra len)) h1 (manyS_ne _ _ _), manyS_head, if_pos hc, chain_add _ _ _ _ hc]
    · rename_i hc
      rw [List.head?_eq_none_iff] at h1
      rw [h1, if_neg hc]; rfl
  unfold spans
  rw [← most]
  cases k.mode with
  | possessive => simp only [List.head?_take]; rfl
  | _ => rfl

theorem manyS_cases {body : Nat → List Nat} {f : Nat} {p r : Nat × Nat} (h : r ∈ manyS body f p) : r = p ∨ (f ≠ 0 ∧ body p.2 ≠ []) := by
  cases f with
  | zero => simp [manyS] at h; exact Or.inl h
  | succ f =>
    simp only [manyS, List.mem_append, List.mem_flatMap, List.mem_singleton] at h
    rcases h with ⟨e, he, _⟩ | h
    · exact Or.inr ⟨by omega, fun hc => by rw [hc] at he; simp at he⟩
    · exact Or.inl h

theorem manyS_single {len : Nat} {body : Nat → List Nat} (hb : Eats len body) {R : Nat → Prop} (h1 : Single len body R) : ∀ (f : Nat) (p r : Nat × Nat), p.2 ≤ len →
    (f ≤ 1 ∨ Single len body (fun e => body e ≠ [])) → (f = 0 ∨ ∀ i, i ≤ len → R i → body i = []) → r ∈ manyS body f p → R r.2 → (manyS body f p).head? = some r
  | 0, p, r, _, _, _, hr, _ => by simp [manyS] at hr ⊢; exact hr.symm
  | f + 1, p, r, hp, h2, h3, hr, hR => by
    simp only [manyS, List.mem_append, List.mem_flatMap, List.mem_singleton] at hr ⊢
    rcases hr with ⟨e, he, hr⟩ | rfl
    · have hle := hb.inside _ _ hp he
      have ih := manyS_single hb h1 f (p.2, e) r hle (h2.imp (by omega) id) (h3.imp (by omega) id) hr hR
      have hhead : (body p.2).head? = some e := by
        rcases manyS_cases hr with rfl | ⟨hf, hne⟩
        · exact h1 _ _ hp he hR
        · rcases h2 with h | h
          · omega
          · exact h _ _ hp he hne
      rw [List.head?_append, flatMap_head (F := fun e => manyS body f (p.2, e)) hhead (manyS_ne _ _ _), ih]
      rfl
    · rcases h3 with h | h
      · omega
      · rw [h _ hp hR]; simp

theorem mustS_single {len : Nat} {body : Nat → List Nat} (hb : Eats len body) {R : Nat → Prop} (h1 : Single len body R) (x : Nat)
    (h3 : x = 0 ∨ ∀ i, i ≤ len → R i → body i = []) : ∀ (m : Nat) (p r : Nat × Nat), p.2 ≤ len →
    (m + x ≤ 1 ∨ Single len body (fun e => body e ≠ [])) → r ∈ (mustS body m p).flatMap (manyS body x) → R r.2 →
    ((mustS body m p).flatMap (manyS body x)).head? = some r
  | 0, p, r, hp, h2, hr, hR => by
    simp only [mustS, List.flatMap_cons, List.flatMap_nil, List.append_nil] at hr ⊢
    exact manyS_single hb h1 x p r hp (h2.imp (by omega) id) h3 hr hR
  | m + 1, p, r, hp, h2, hr, hR => by
    simp only [mustS, List.flatMap_assoc, List.mem_flatMap] at hr ⊢
    obtain ⟨e, he, t, ht, hr⟩ := hr
    have hle := hb.inside _ _ hp he
    have hr' : r ∈ (mustS body m (p.2, e)).flatMap (manyS body x) := List.mem_flatMap.2 ⟨t, ht, hr⟩
    have ih := mustS_single hb h1 x h3 m (p.2, e) r hle (h2.imp (by omega) id) hr' hR
    have hhead : (body p.2).head? = some e := by
      by_cases hre : r = (p.2, e)
      · subst hre; exact h1 _ _ hp he hR
      · have hne : body e ≠ [] ∧ ¬ (m + 1 + x ≤ 1) := by
          cases m with
          | zero =>
            simp only [mustS, List.mem_singleton] at ht
            subst ht
            rcases manyS_cases hr with h | ⟨hf, hne⟩
            · exact absurd h hre
            · exact ⟨hne, by omega⟩
          | succ m =>
            refine ⟨fun hc => ?_, by omega⟩
            simp only [mustS, hc] at ht
            simp at ht
        rcases h2 with h | h
        · exact absurd h hne.2
        · exact h _ _ hp he hne.1
    rw [flatMap_head (F := fun e => (mustS body m (p.2, e)).flatMap (manyS body x)) hhead, ih]
    intro hc; rw [hc] at ih; simp at ih

/-- If what follows works behind some repetition, it is the preferred one. -/
theorem spans_single {len : Nat} {body : Nat → List Nat} (hb : Eats len body) {R : Nat → Prop} (h1 : Single len body R) (k : Quant) (hm : k.mode ≠ .possessive) {i : Nat}
    (hi : i ≤ len) (h2 : k.lo + k.extra len ≤ 1 ∨ Single len body (fun e => body e ≠ [])) (h3 : k.extra len = 0 ∨ ∀ i, i ≤ len → R i → body i = [])
    {r : Nat × Nat} (hr : r ∈ spans len k body i) (hR : R r.2) : (spans len k body i).head? = some r := by
  have e : spans len k body i = (mustS body k.lo (i, i)).flatMap (manyS body (k.extra len)) := by
    unfold spans
    cases hk : k.mode with
    | possessive => exact absurd hk hm
    | _ => rfl
  rw [e] at hr ⊢
  exact mustS_single hb h1 _ h3 k.lo (i, i) r hi h2 hr hR

theorem spans_poss {len : Nat} {k : Quant} (hm : k.mode = .possessive) (body : Nat → List Nat) (i : Nat) {r : Nat × Nat} (hr : r ∈ spans len k body i) :
    (spans len k body i).head? = some r := by
  unfold spans at hr ⊢
  rw [hm] at hr ⊢
  simp only at hr ⊢
  generalize (mustS body k.lo (i, i)).flatMap (manyS body (k.extra len)) = l at hr ⊢
  cases l with
  | nil => simp at hr
  | cons x l => simp at hr ⊢; exact hr.symm

theorem spans_mem {len : Nat} {k : Quant} {body : Nat → List Nat} {i : Nat} {r : Nat × Nat} (hr : r ∈ spans len k body i) :
    r ∈ (mustS body k.lo (i, i)).flatMap (manyS body (k.extra len)) := by
  unfold spans at hr
  cases hk : k.mode with
  | possessive => rw [hk] at hr; exact List.mem_of_mem_take hr
  | _ => rw [hk] at hr; exact hr

theorem spans_bound {len : Nat} {body : Nat → List Nat} (hb : Eats len body) {k : Quant} {i : Nat} (hi : i ≤ len) {r : Nat × Nat} (hr : r ∈ spans len k body i) :
    r.2 ≤ len ∧ i ≤ r.2 := by
  obtain ⟨p, hp, hr⟩ := List.mem_flatMap.1 (spans_mem hr)
  have h1 := mustS_bound hb k.lo (i, i) p hi hp
  have h2 := manyS_bound hb _ p r h1.1 hr
  exact ⟨h2.1, by have := h1.2; simp only at this; omega⟩

theorem spans_inside {len : Nat} {body : Nat → List Nat} (hb : ∀ i e, i ≤ len → e ∈ body i → i ≤ e ∧ e ≤ len) {k : Quant} {i : Nat} (hi : i ≤ len) {r : Nat × Nat}
    (hr : r ∈ spans len k body i) : i ≤ r.2 ∧ r.2 ≤ len := by
  have many : ∀ (f : Nat) (p r : Nat × Nat), p.2 ≤ len → r ∈ manyS body f p → p.2 ≤ r.2 ∧ r.2 ≤ len := by
    intro f
    induction f with
    | zero => intro p r h hr; simp [manyS] at hr; subst hr; exact ⟨Nat.le_refl _, h⟩
    | succ f ih =>
      intro p r h hr
      simp only [manyS, List.mem_append, List.mem_flatMap, List.mem_singleton] at hr
      rcases hr with ⟨e, he, hr⟩ | rfl
      · have h1 := hb _ _ h he
        have h2 := ih (p.2, e) r h1.2 hr
        simp only at h2; omega
      · exact ⟨Nat.le_refl _, h⟩
  have must : ∀ (f : Nat) (p r : Nat × Nat), p.2 ≤ len → r ∈ mustS body f p → p.2 ≤ r.2 ∧ r.2 ≤ len := by
    intro f
    induction f with
    | zero => intro p r h hr; simp [mustS] at hr; subst hr; exact ⟨Nat.le_refl _, h⟩
    | succ f ih =>
      intro p r h hr
      simp only [mustS, List.mem_flatMap] at hr
      obtain ⟨e, he, hr⟩ := hr
      have h1 := hb _ _ h he
      have h2 := ih (p.2, e) r h1.2 hr
      simp only at h2; omega
  obtain ⟨p, hp, hr⟩ := List.mem_flatMap.1 (spans_mem hr)
  have h1 := must _ _ _ hi hp
  have h2 := many _ _ _ h1.2 hr
  simp only at h1; omega

/-- Either no repetition, or the first one begins here. -/
theorem spans_first {len : Nat} {k : Quant} {body : Nat → List Nat} {i : Nat} {r : Nat × Nat} (hr : r ∈ spans len k body i) :
    (r = (i, i) ∧ k.lo = 0) ∨ body i ≠ [] := by
  obtain ⟨p, hp, hr⟩ := List.mem_flatMap.1 (spans_mem hr)
  cases hlo : k.lo with
  | zero =>
    rw [hlo] at hp
    simp only [mustS, List.mem_singleton] at hp
    subst hp
    rcases manyS_cases hr with h | h
    · exact Or.inl ⟨h, rfl⟩
    · exact Or.inr h.2
  | succ n =>
    right
    intro hc
    rw [hlo] at hp
    simp [mustS, hc] at hp

theorem spans_ne {len : Nat} {k : Quant} (h : k.lo = 0) (body : Nat → List Nat) (i : Nat) : spans len k body i ≠ [] := by
  have hne : (mustS body k.lo (i, i)).flatMap (manyS body (k.extra len)) ≠ [] := by
    rw [h]; simp [mustS, manyS_ne]
  unfold spans
  cases k.mode with
  | possessive =>
    simp only
    generalize (mustS body k.lo (i, i)).flatMap (manyS body (k.extra len)) = l at hne
    cases l with
    | nil => exact absurd rfl hne
    | cons => simp
  | _ => exact hne

/-- The last repetition is a match of the body. -/
theorem spans_last {len : Nat} {body : Nat → List Nat} {k : Quant} (h0 : k.lo ≠ 0) {i : Nat} {r : Nat × Nat} (hb : Eats len body) (hi : i ≤ len) (hr : r ∈ spans len k body i) :
    r.2 ∈ body r.1 ∧ i ≤ r.1 ∧ r.1 ≤ len := by
  obtain ⟨p, hp, hr⟩ := List.mem_flatMap.1 (spans_mem hr)
  have many : ∀ (f : Nat) (p r : Nat × Nat), r ∈ manyS body f p → p.2 ≤ len → p.2 ∈ body p.1 → i ≤ p.1 → p.1 ≤ len → r.2 ∈ body r.1 ∧ i ≤ r.1 ∧ r.1 ≤ len := by
    intro f
    induction f with
    | zero => intro p r h h1 h2 h3 h4; simp [manyS] at h; subst h; exact ⟨h2, h3, h4⟩
    | succ f ih =>
      intro p r h h1 h2 h3 h4
      simp only [manyS, List.mem_append, List.mem_flatMap, List.mem_singleton] at h
      rcases h with ⟨e, he, h⟩ | rfl
      · have := hb.more _ _ h2
        exact ih (p.2, e) r h (hb.inside _ _ h1 he) he (by simp only; omega) h1
      · exact ⟨h2, h3, h4⟩
  have must : ∀ (m : Nat) (p r : Nat × Nat), r ∈ mustS body (m + 1) p → p.2 ≤ len → i ≤ p.2 → r.2 ≤ len ∧ r.2 ∈ body r.1 ∧ i ≤ r.1 ∧ r.1 ≤ len := by
    intro m
    induction m with
    | zero =>
      intro p r h h1 h2
      simp only [mustS, List.mem_flatMap, List.mem_singleton] at h
      obtain ⟨e, he, rfl⟩ := h
      exact ⟨hb.inside _ _ h1 he, he, h2, h1⟩
    | succ m ih =>
      intro p r h h1 h2
      rw [mustS, List.mem_flatMap] at h
      obtain ⟨e, he, h⟩ := h
      have := hb.more _ _ he
      exact ih (p.2, e) r h (hb.inside _ _ h1 he) (by simp only; omega)
  obtain ⟨m, hm⟩ : ∃ m, k.lo = m + 1 := ⟨k.lo - 1, by omega⟩
  rw [hm] at hp
  obtain ⟨h1, h2, h3, h4⟩ := must m (i, i) p hp hi (Nat.le_refl _)
  exact many _ p r hr h1 h2 h3 h4

/-- The last repetition is a match of the body. -/
theorem spans_body {len : Nat} {body : Nat → List Nat} {k : Quant} (h0 : k.lo ≠ 0) {i : Nat} {r : Nat × Nat} (hr : r ∈ spans len k body i) : r.2 ∈ body r.1 := by
  obtain ⟨p, hp, hr⟩ := List.mem_flatMap.1 (spans_mem hr)
  have many : ∀ (f : Nat) (p r : Nat × Nat), r ∈ manyS body f p → p.2 ∈ body p.1 → r.2 ∈ body r.1 := by
    intro f
    induction f with
    | zero => intro p r h h1; simp [manyS] at h; subst h; exact h1
    | succ f ih =>
      intro p r h h1
      simp only [manyS, List.mem_append, List.mem_flatMap, List.mem_singleton] at h
      rcases h with ⟨e, he, h⟩ | rfl
      · exact ih (p.2, e) r h he
      · exact h1
  have must : ∀ (m : Nat) (p r : Nat × Nat), r ∈ mustS body (m + 1) p → r.2 ∈ body r.1 := by
    intro m
    induction m with
    | zero =>
      intro p r h
      simp only [mustS, List.mem_flatMap, List.mem_singleton] at h
      obtain ⟨e, he, rfl⟩ := h
      exact he
    | succ m ih =>
      intro p r h
      rw [mustS, List.mem_flatMap] at h
      obtain ⟨e, he, h⟩ := h
      exact ih (p.2, e) r h
  obtain ⟨m, hm⟩ : ∃ m, k.lo = m + 1 := ⟨k.lo - 1, by omega⟩
  rw [hm] at hp
  exact many _ p r hr (must m (i, i) p hp)

end ERegex

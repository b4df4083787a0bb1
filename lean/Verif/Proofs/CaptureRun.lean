import Verif.Proofs.CaptureLoop
import Verif.Proofs.Spans
/-!
# Captures: running the tree of a sequence with groups
-/
set_option autoImplicit false
namespace ERegex
open ERegex.Spec ERegex.Props

/-! ## the list of ways -/

theorem first_at (q : List Int) : ∀ (s : Sq) (i e : Nat), e ∈ s.picks q i →
    (e = i ∧ s.nullable = true) ∨ i = q.length ∨ ∃ c, q[i]? = some c ∧ s.first c = true
  | .nil false, i, e, h => by simp [Sq.picks] at h; exact Or.inl ⟨h, rfl⟩
  | .nil true, i, e, h => by
    simp only [Sq.picks] at h
    split at h
    · rename_i e; exact Or.inr (Or.inl e)
    · split at h
      · rename_i e; exact Or.inr (Or.inr ⟨10, e, by simp [Sq.first]⟩)
      · simp at h
  | .cons a k s, i, e, h => by
    simp only [Sq.picks, List.mem_flatMap] at h
    obtain ⟨n, hn, hp⟩ := h
    obtain ⟨h1, h2⟩ := counts_sub k _ n hn
    cases n with
    | zero =>
      have h0 : k.lo = 0 := by have := h1.1; omega
      rcases first_at q s _ _ hp with h | h | ⟨c, hc, hf⟩
      · left; exact ⟨by simpa using h.1, by simp [Sq.nullable, h0, h.2]⟩
      · right; left; simpa using h
      · right; right; exact ⟨c, by simpa using hc, by simp [Sq.first, h0, hf]⟩
    | succ n =>
      obtain ⟨c, hc, hs⟩ := (inClass_runLen q a.set i (n + 1)).2 h2 0 (by omega)
      exact Or.inr (Or.inr ⟨c, by simpa using hc, by simp [Sq.first, hs]⟩)

theorem picks_le (q : List Int) : ∀ (s : Sq) (i e : Nat), i ≤ q.length → e ∈ s.picks q i → i ≤ e ∧ e ≤ q.length
  | .nil false, i, e, hi, h => by simp [Sq.picks] at h; omega
  | .nil true, i, e, hi, h => by
    simp only [Sq.picks] at h
    split at h
    · simp at h; omega
    · split at h
      · rename_i hc; have := (List.getElem?_eq_some_iff.1 hc).1; simp at h; omega
      · simp at h
  | .cons a k s, i, e, hi, h => by
    simp only [Sq.picks, List.mem_flatMap] at h
    obtain ⟨n, hn, hp⟩ := h
    obtain ⟨h1, h2⟩ := counts_sub k _ n hn
    have := runLen_le q a.set i hi
    have := picks_le q s (i + n) e (by omega) hp
    omega

/-- An end of an alternative. -/
theorem alts_mem (q : List Int) : ∀ (as : Alts) (i e : Nat), e ∈ as.picks q i → ∃ b ∈ as.list, e ∈ b.picks q i
  | .last hat s, i, e, h => by
    simp only [Alts.picks, hatPicks] at h
    split at h
    · simp at h
    · exact ⟨s, by simp [Alts.list], h⟩
  | .more hat s as, i, e, h => by
    simp only [Alts.picks, List.mem_append, hatPicks] at h
    rcases h with h | h
    · split at h
      · simp at h
      · exact ⟨s, by simp [Alts.list], h⟩
    · obtain ⟨b, hb, he⟩ := alts_mem q as i e h
      exact ⟨b, by simp [Alts.list, hb], he⟩

theorem alts_le {q : List Int} {as : Alts} {i e : Nat} (hi : i ≤ q.length) (h : e ∈ as.picks q i) : i ≤ e ∧ e ≤ q.length := by
  obtain ⟨b, _, hb⟩ := alts_mem q as i e h
  exact picks_le q b i e hi hb

theorem bare_picks (q : List Int) : ∀ (as : Alts), as.bare = true → ∀ i b, b ∈ as.list → ∀ e ∈ b.picks q i, e ∈ as.picks q i
  | .last hat s, h, i, b, hb, e, he => by
    simp only [Alts.bare, Bool.and_eq_true, Bool.not_eq_true'] at h
    simp only [Alts.list, List.mem_singleton] at hb
    subst hb
    simpa [Alts.picks, hatPicks, h.1] using he
  | .more hat s as, h, i, b, hb, e, he => by
    simp only [Alts.bare, Bool.and_eq_true, Bool.not_eq_true'] at h
    simp only [Alts.list, List.mem_cons] at hb
    simp only [Alts.picks, hatPicks, h.1.1, Bool.false_and, Bool.false_eq_true, if_false, List.mem_append]
    rcases hb with rfl | hb
    · exact Or.inl he
    · exact Or.inr (bare_picks q as h.2 i b hb e he)

theorem eats_null : ∀ (b : Sq), b.eats = true → b.nullable = false
  | .nil _, h => by simp [Sq.eats] at h
  | .cons a k s, h => by
    simp only [Sq.eats, Bool.or_eq_true, bne_iff_ne] at h
    simp only [Sq.nullable, Bool.and_eq_false_iff, beq_eq_false_iff_ne]
    rcases h with h | h
    · exact Or.inl h
    · exact Or.inr (eats_null s h)

/-- The groups have no anchors; the quantified ones take characters. -/
def plainGroups : Sq → Bool
  | .nil _ => true
  | .cons (.group _ as) k s => as.bare && (match k with | .once => true | _ => as.list.all Sq.eats) && plainGroups s
  | .cons _ _ s => plainGroups s

theorem plain_eats {capture : Bool} {as : Alts} {k : Quant} {s : Sq} (h : plainGroups (.cons (.group capture as) k s) = true) (hk : k ≠ .once) :
    ∀ b ∈ as.list, b.eats = true := by
  simp only [plainGroups, Bool.and_eq_true] at h
  have := h.1.2
  cases k <;> first | exact absurd rfl hk | simpa using this

/-- Either the group can be empty, or a match begins with one of its characters. -/
theorem begins_caps (q : List Int) : ∀ (s : Sq), plainGroups s = true → ∀ (i : Nat), caps q s i ≠ [] → s.voids = true ∨ i = q.length ∨ ∃ c, q[i]? = some c ∧ s.begins c = true
  | .nil d, _, i, h => by
    have := first_picks q (.nil d) i (by simpa [caps] using h)
    simpa [Sq.voids, Sq.begins, Sq.nullable, Sq.first] using this
  | .cons (.group capture as) k s, hpl, i, h => by
    have hps : plainGroups s = true := by simp only [plainGroups, Bool.and_eq_true] at hpl; exact hpl.2
    have fst : ∀ e, e ∈ as.picks q i → (k = .once → caps q s e ≠ []) →
        (Sq.cons (.group capture as) k s).voids = true ∨ i = q.length ∨ ∃ c, q[i]? = some c ∧ (Sq.cons (.group capture as) k s).begins c = true := by
      intro e he hs
      obtain ⟨b, hb, he⟩ := alts_mem q as i e he
      rcases first_at q b i e he with ⟨rfl, hn⟩ | h | ⟨c, hc, hf⟩
      · have hany : as.list.any Sq.nullable = true := List.any_eq_true.2 ⟨b, hb, hn⟩
        by_cases hk : k = .once
        · rcases begins_caps q s hps e (hs hk) with h | h | ⟨c, hc, hf⟩
          · left; simp [Sq.voids, hany, h]
          · exact Or.inr (Or.inl h)
          · exact Or.inr (Or.inr ⟨c, hc, by simp [Sq.begins, hany, hf]⟩)
        · have := eats_null b (plain_eats hpl hk b hb)
          rw [hn] at this; cases this
      · exact Or.inr (Or.inl h)
      · exact Or.inr (Or.inr ⟨c, hc, by simp only [Sq.begins, Bool.or_eq_true]; exact Or.inl (List.any_eq_true.2 ⟨b, hb, hf⟩)⟩)
    by_cases hk : k = .once
    · subst hk
      rw [caps_once] at h
      have : ∃ e, e ∈ as.picks q i ∧ caps q s e ≠ [] := by
        simp only [ne_eq, List.flatMap_eq_nil_iff] at h
        simpa using h
      obtain ⟨e, he, hs⟩ := this
      exact fst e he (fun _ => hs)
    · have : ∃ p ∈ spans q.length k (as.picks q) i, caps q s p.2 ≠ [] := by
        simp only [caps, ne_eq, List.flatMap_eq_nil_iff, List.map_eq_nil_iff, Classical.not_forall] at h
        obtain ⟨p, hp, h⟩ := h
        exact ⟨p, hp, h⟩
      obtain ⟨p, hp, hs⟩ := this
      rcases spans_first hp with ⟨rfl, h0⟩ | hne
      · rcases begins_caps q s hps i hs with h | h | ⟨c, hc, hf⟩
        · left; simp [Sq.voids, h0, h]
        · exact Or.inr (Or.inl h)
        · exact Or.inr (Or.inr ⟨c, hc, by simp [Sq.begins, h0, hf]⟩)
      · obtain ⟨e, he⟩ := List.exists_mem_of_ne_nil _ hne
        exact fst e he (fun h => absurd h hk)
  | .cons (.chr x) k s, hpl, i, h | .cons (.esc x) k s, hpl, i, h | .cons .dot k s, hpl, i, h | .cons (.hex x y) k s, hpl, i, h
  | .cons (.oct x y z) k s, hpl, i, h | .cons (.cls x y z) k s, hpl, i, h => by
    simp only [caps, ne_eq, List.flatMap_eq_nil_iff] at h
    simp only [Classical.not_forall] at h
    obtain ⟨n, hn, hs⟩ := h
    obtain ⟨h1, h2⟩ := counts_sub k _ n hn
    cases n with
    | zero =>
      have h0 : k.lo = 0 := by have := h1.1; omega
      rcases begins_caps q s (by simpa [plainGroups] using hpl) _ hs with h | h | ⟨c, hc, hf⟩
      · left; simp [Sq.voids, h0, h]
      · right; left; simpa using h
      · right; right; exact ⟨c, by simpa using hc, by simp [Sq.begins, h0, hf]⟩
    | succ n =>
      obtain ⟨c, hc, hs⟩ := (inClass_runLen q _ i (n + 1)).2 h2 0 (by omega)
      exact Or.inr (Or.inr ⟨c, by simpa using hc, by simp [Sq.begins, hs]⟩)

theorem caps_atom {a : Atom} (h : Plain a) (q : List Int) (k : Quant) (s : Sq) (i : Nat) :
    caps q (.cons a k s) i = (k.counts (runLen a.set (q.drop i))).flatMap (fun n => caps q s (i + n)) := by
  cases a <;> first | rfl | simp [Plain, Atom.steady, Atom.skips] at h

theorem counts_zero {k : Quant} (h : k.lo = 0) (a : Nat) : ∃ n, n ∈ k.counts a := by
  by_cases hm : k.mode = .possessive
  · exact ⟨_, by unfold Quant.counts; rw [hm]; simp only [h, Nat.zero_le, if_true]; exact List.mem_singleton.2 rfl⟩
  · exact ⟨0, (mem_greedy k _ 0 hm).2 ⟨⟨by omega, fun h _ => Nat.zero_le _⟩, Nat.zero_le _⟩⟩

theorem voids_caps (q : List Int) : ∀ (s : Sq), plainGroups s = true → s.voids = true → ∀ i, caps q s i ≠ []
  | .nil false, _, _, i => by simp [caps, Sq.picks]
  | .nil true, _, h, i => by simp [Sq.voids] at h
  | .cons (.group capture as) k s, hp, h, i => by
    have hp0 := hp
    simp only [plainGroups, Bool.and_eq_true] at hp
    simp only [Sq.voids, Bool.and_eq_true, Bool.or_eq_true, List.any_eq_true, beq_iff_eq] at h
    have hne : spans q.length k (as.picks q) i ≠ [] := by
      by_cases h0 : k.lo = 0
      · exact spans_ne h0 _ _
      · obtain ⟨b, hb, hn⟩ := h.1.resolve_left h0
        obtain ⟨e, he⟩ := List.exists_mem_of_ne_nil _ (nullable_picks q b hn i)
        have hm := bare_picks q as hp.1.1 i b hb e he
        by_cases hk : k = .once
        · subst hk
          rw [spans_once]
          intro hc
          rw [List.map_eq_nil_iff] at hc
          rw [hc] at hm; simp at hm
        · have := eats_null b (plain_eats (capture := capture) (s := s) hp0 hk b hb)
          rw [hn] at this; cases this
    obtain ⟨p, hm⟩ := List.exists_mem_of_ne_nil _ hne
    intro hc
    simp only [caps, List.flatMap_eq_nil_iff, List.map_eq_nil_iff] at hc
    exact voids_caps q s hp.2 h.2 _ (hc p hm)
  | .cons (.chr x) k s, hp, h, i | .cons (.esc x) k s, hp, h, i | .cons .dot k s, hp, h, i | .cons (.hex x y) k s, hp, h, i
  | .cons (.oct x y z) k s, hp, h, i | .cons (.cls x y z) k s, hp, h, i => by
    simp only [plainGroups] at hp
    simp only [Sq.voids, Bool.and_eq_true, beq_iff_eq] at h
    intro hc
    simp only [caps, List.flatMap_eq_nil_iff] at hc
    obtain ⟨n, hn⟩ := counts_zero h.1 (runLen _ (q.drop i))
    exact voids_caps q s hp h.2 _ (hc n hn)

theorem rep_eats {c : Bool} {as : Alts} {k : Quant} {s : Sq} (h : repOk c as k s = true) : ∀ b ∈ as.list, b.eats = true := by
  simp only [repOk, Bool.and_eq_true, List.all_eq_true] at h
  exact fun b hb => (h.1.1.1.1.1.2 b hb).2

theorem rep_count {c : Bool} {as : Alts} {k : Quant} {s : Sq} (h : repOk c as k s = true) : as.count = 0 := by
  have hb := rep_body h
  simp only [bodyOk, Bool.and_eq_true] at hb
  exact (alts_ways as (body_flats hb.1.1.2) [] 0 0 (fun _ => none)).2

theorem fitsC_plain {f : Bool} {n : Nat} {s : Sq} {cs : List Node} (h : FitsC f n s cs) : plainGroups s = true := by
  have at' : ∀ {a : Atom} {k : Quant} {s : Sq}, Plain a → plainGroups s = true → plainGroups (.cons a k s) = true := by
    intro a k s hp h
    cases a <;> first | simpa [plainGroups] using h | simp [Plain, Atom.steady, Atom.skips] at hp
  have bare : ∀ {c as s}, bodyOk c as s = true → as.bare = true := by
    intro c as s h
    simp only [bodyOk, Bool.and_eq_true] at h
    exact h.1.1.1
  have rep : ∀ {c as k s}, repOk c as k s = true → plainGroups s = true → plainGroups (.cons (.group c as) k s) = true := by
    intro c as k s h hp
    have := bare (rep_body h)
    have he := rep_eats h
    simp only [plainGroups, this, hp, Bool.true_and, Bool.and_true]
    cases k <;> first | rfl | simpa [List.all_eq_true] using he
  induction h with
  | nil => rfl
  | dollar => rfl
  | dollar' => rfl
  | once hp _ _ ih => exact at' hp ih
  | last hp _ => exact at' hp rfl
  | exact hp _ _ _ ih => exact at' hp ih
  | possessive hp _ _ _ _ ih => exact at' hp ih
  | greedy hp _ _ _ _ _ ih => exact at' hp ih
  | lazy hp _ _ _ _ _ ih => exact at' hp ih
  | cap _ _ hb _ ih => simp [plainGroups, bare hb, ih]
  | capLoop _ _ _ _ ih => simp [plainGroups, Alts.bare, Sq.dollar, ih]
  | non _ _ hb ih => simp [plainGroups, bare hb, ih]
  | nonLast _ hb => simp [plainGroups, bare hb]
  | repPoss _ _ _ hb ih => exact rep hb ih
  | repGreedy _ _ _ _ _ hb ih => exact rep hb ih
  | repExact _ _ _ hb ih => exact rep hb ih

/-- The largest number of repetitions works whenever any does. -/
theorem top_caps {q : List Int} (hq : ∀ c ∈ q, c ∈ allChars) {a : Atom} {s : Sq} (hps : plainGroups s = true) (hm : s.voids = true ∨ meets a.set s.begins = false) {i n t : Nat}
    (hi : i ≤ q.length) (hn : n ≤ t) (ht : t ≤ runLen a.set (q.drop i)) (hp : caps q s (i + n) ≠ []) : s.voids = true ∨ n = t := by
  rcases hm with hm | hm
  · exact Or.inl hm
  by_cases e : n = t
  · exact Or.inr e
  rcases begins_caps q s hps _ hp with h | h | ⟨c, hc, hf⟩
  · exact Or.inl h
  · have := runLen_le q a.set i hi; omega
  · exfalso
    obtain ⟨d, hd, hs⟩ := (inClass_runLen q a.set i t).2 ht n (by omega)
    rw [hc] at hd; cases hd
    have : meets a.set s.begins = true := (meets_iff _ _).2 ⟨c, hq c (List.mem_of_getElem? hc), hs, hf⟩
    rw [hm] at this; cases this

/-- In a settled sequence, an end at which the rest works is the preferred one. -/
theorem settled_head {q : List Int} (hq : ∀ c ∈ q, c ∈ allChars) {s : Sq} (hps : plainGroups s = true) (hv : s.voids = false) : ∀ (b : Sq), settled s b = true → ∀ (i e : Nat), i ≤ q.length →
    e ∈ b.picks q i → caps q s e ≠ [] → (b.picks q i).head? = some e
  | .nil false, _, i, e, _, he, _ => by simp [Sq.picks] at he ⊢; exact he.symm
  | .nil true, _, i, e, _, he, _ => by
    simp only [Sq.picks] at he ⊢
    split at he
    · rename_i h; rw [if_pos h]; simp at he ⊢; exact he.symm
    · rename_i h
      split at he
      · rename_i h'; rw [if_neg h, if_pos h']; simp at he ⊢; exact he.symm
      · simp at he
  | .cons a k b, h, i, e, hi, he, hw => by
    simp only [settled, Bool.and_eq_true] at h
    simp only [Sq.picks, List.mem_flatMap] at he ⊢
    obtain ⟨n, hn, he⟩ := he
    obtain ⟨h1, h2⟩ := counts_sub k _ n hn
    have hlen := runLen_le q a.set i hi
    have ih := settled_head hq hps hv b h.2 (i + n) e (by omega) he hw
    have hne : b.picks q (i + n) ≠ [] := by intro hc; rw [hc] at he; simp at he
    rw [← ih]
    have hk := h.1
    have char : ∀ {m t : Nat}, m < t → t ≤ runLen a.set (q.drop i) → ∃ d, q[i + m]? = some d ∧ a.set d = true ∧ d ∈ allChars := by
      intro m t h3 h4
      obtain ⟨d, hd, hs⟩ := (inClass_runLen q a.set i t).2 h4 m h3
      exact ⟨d, hd, hs, hq d (List.mem_of_getElem? hd)⟩
    have fixed : k.fixed = true → ((k.counts (runLen a.set (q.drop i))).flatMap (fun n => b.picks q (i + n))).head? = (b.picks q (i + n)).head? := by
      intro hf
      cases k with
      | once =>
        rw [counts_fixed (n := 1) rfl rfl] at hn ⊢
        split at hn
        · rename_i h; simp only [List.mem_singleton] at hn; rw [if_pos h, hn]; simp
        · simp at hn
      | exact d md =>
        rw [counts_fixed (n := (decimal d).toNat) rfl rfl] at hn ⊢
        split at hn
        · rename_i h; simp only [List.mem_singleton] at hn; rw [if_pos h, hn]; simp
        · simp at hn
      | star | plus | opt | atLeast | between => simp [Quant.fixed] at hf
    cases hmo : k.mode with
    | possessive =>
      unfold Quant.counts at hn ⊢
      rw [hmo] at hn ⊢
      simp only at hn ⊢
      split at hn
      · rename_i h; simp only [List.mem_singleton] at hn; rw [if_pos h, hn]; simp
      · simp at hn
    | greedy =>
      rw [hmo] at hk
      simp only [Bool.or_eq_true, Bool.and_eq_true, Bool.not_eq_true'] at hk
      rcases hk with (hk | hk) | hk
      · exact fixed hk
      · rw [hv] at hk; simp at hk
      · refine head_greedy (f := fun n => b.picks q (i + n)) hmo h1 h2 hne (fun m hm1 hm2 _ => ?_)
        by_cases hle : m ≤ n
        · exact hle
        · exfalso
          obtain ⟨d, hd, hs, hac⟩ := char (m := n) (t := m) (by omega) hm2
          have no : ¬ ((fun x => b.first x || (b.nullable && s.begins x)) d = true) := by
            intro hc
            have := (meets_iff a.set (fun x => b.first x || (b.nullable && s.begins x))).2 ⟨d, hac, hs, hc⟩
            rw [hk] at this; cases this
          rcases first_at q b _ _ he with ⟨rfl, hnb⟩ | h | ⟨c, hc, hf⟩
          · rcases begins_caps q s hps _ hw with h | h | ⟨c, hc, hf⟩
            · rw [hv] at h; cases h
            · omega
            · rw [hd] at hc; cases hc; exact no (by simp [hnb, hf])
          · omega
          · rw [hd] at hc; cases hc; exact no (by simp [hf])
    | lazy =>
      rw [hmo] at hk
      simp only [Bool.or_eq_true, Bool.and_eq_true, Bool.not_eq_true'] at hk
      rcases hk with hk | ⟨hk1, hk2⟩
      · exact fixed hk
      · refine head_lazy (f := fun n => b.picks q (i + n)) hmo h1 h2 hne (fun m hm1 hm2 hm3 => ?_)
        by_cases hle : n ≤ m
        · exact hle
        · exfalso
          obtain ⟨d, hd, hs, hac⟩ := char (m := m) (t := n) (by omega) h2
          rcases first_picks q b _ hm3 with h | h | ⟨c, hc, hf⟩
          · rw [hk1] at h; cases h
          · omega
          · rw [hd] at hc; cases hc
            have := (meets_iff _ _).2 ⟨d, hac, hs, hf⟩
            rw [hk2] at this; cases this

theorem parts_none {q : List Int} (hq : ∀ c ∈ q, c ∈ allChars) {s : Sq} (hps : plainGroups s = true) : ∀ (b b' : Sq), parts s b b' = true → ∀ (i e x : Nat), i ≤ q.length →
    e ∈ b'.picks q i → caps q s e ≠ [] → x ∈ b.picks q i → False
  | .nil _, b', h, _, _, _, _, _, _, _ => by cases b' <;> simp [parts] at h
  | .cons a k b, .nil true, h, _, _, _, _, _, _, _ => by simp [parts] at h
  | .cons a k b, .nil false, h, i, e, x, hi, he, hw, hx => by
    simp only [parts, Bool.and_eq_true, bne_iff_ne, ne_eq, Bool.not_eq_true'] at h
    obtain ⟨⟨h1, h2⟩, h3⟩ := h
    simp only [Sq.picks, List.mem_singleton] at he
    subst he
    simp only [Sq.picks, List.mem_flatMap] at hx
    obtain ⟨n, hn, _⟩ := hx
    obtain ⟨g1, g2⟩ := counts_sub _ _ _ hn
    have g1 := g1.1
    obtain ⟨d, hd, hs⟩ := (inClass_runLen q a.set e n).2 g2 0 (by omega)
    rw [Nat.add_zero] at hd
    rcases begins_caps q s hps e hw with g | g | ⟨c, hc, g⟩
    · rw [h2] at g; cases g
    · rw [List.getElem?_eq_none (by omega)] at hd; cases hd
    · rw [hc] at hd; cases hd
      have := (meets_iff a.set s.begins).2 ⟨d, hq d (List.mem_of_getElem? hc), hs, g⟩
      rw [h3] at this; cases this
  | .cons a k b, .cons a' k' b', h, i, e, x, hi, he, hw, hx => by
    simp only [parts, Bool.or_eq_true, Bool.and_eq_true, bne_iff_ne, ne_eq, Bool.not_eq_true', beq_iff_eq] at h
    simp only [Sq.picks, List.mem_flatMap] at hx he
    obtain ⟨n, hn, hx⟩ := hx
    obtain ⟨n', hn', he⟩ := he
    obtain ⟨g1, g2⟩ := counts_sub _ _ _ hn
    obtain ⟨g3, g4⟩ := counts_sub _ _ _ hn'
    rcases h with ⟨⟨h1, h2⟩, h3⟩ | ⟨⟨⟨h1, h2⟩, h3⟩, h4⟩
    · have g1 := g1.1
      have g3 := g3.1
      obtain ⟨d, hd, hs⟩ := (inClass_runLen q a.set i n).2 g2 0 (by omega)
      obtain ⟨c, hc, hs'⟩ := (inClass_runLen q a'.set i n').2 g4 0 (by omega)
      rw [hd] at hc; cases hc
      have := (meets_iff a.set a'.set).2 ⟨d, hq d (List.mem_of_getElem? hd), hs, hs'⟩
      rw [h3] at this; cases this
    · have fx : ∀ {k : Quant}, k.fixed = true → k.hi = some k.lo := by
        intro k hk
        cases k <;> simp [Quant.fixed] at hk <;> simp [Quant.hi, Quant.lo]
      have e1 : n = n' := by
        have := g1.1; have := g1.2 _ (fx h1); have := g3.1; have := g3.2 _ (fx h2); omega
      subst e1
      have hlen := runLen_le q a.set i hi
      exact parts_none hq hps b b' h4 (i + n) e x (by omega) he hw hx

theorem parts_weaken {s : Sq} : ∀ (b b' : Sq), parts (.nil false) b b' = true → parts s b b' = true
  | .nil _, b', h => by cases b' <;> simp [parts] at h
  | .cons a k b, .nil true, h => by simp [parts] at h
  | .cons a k b, .nil false, h => by simp [parts, Sq.voids] at h
  | .cons a k b, .cons a' k' b', h => by
    simp only [parts, Bool.or_eq_true, Bool.and_eq_true] at h ⊢
    rcases h with h | h
    · exact Or.inl h
    · exact Or.inr ⟨h.1, parts_weaken b b' h.2⟩

theorem apart_weaken {s : Sq} : ∀ {l : List Sq}, Spec.apart (.nil false) l = true → Spec.apart s l = true
  | [], _ => rfl
  | b :: bs, h => by
    simp only [Spec.apart, Bool.and_eq_true, List.all_eq_true, Bool.or_eq_true] at h ⊢
    refine ⟨fun b' hb' => ?_, apart_weaken h.2⟩
    rcases h.1 b' hb' with h | h
    · exact Or.inl h
    · exact Or.inr (parts_weaken b b' h)

/-- The same for alternatives of which no two can be found at the same place. -/
theorem apart_head {q : List Int} (hq : ∀ c ∈ q, c ∈ allChars) {s : Sq} (hps : plainGroups s = true) (hv : s.voids = false) : ∀ (as : Alts), as.bare = true → (∀ b ∈ as.list, settled s b = true) →
    Spec.apart s as.list = true → (∀ b ∈ as.list, b.eats = true) → ∀ (i e : Nat), i ≤ q.length → e ∈ as.picks q i → caps q s e ≠ [] → (as.picks q i).head? = some e
  | .last hat b, hb, hs, _, _, i, e, hi, he, hw => by
    simp only [Alts.bare, Bool.and_eq_true, Bool.not_eq_true'] at hb
    simp only [Alts.picks, hatPicks, hb.1, Bool.false_and, Bool.false_eq_true, if_false] at he ⊢
    exact settled_head hq hps hv b (hs b (by simp [Alts.list])) i e hi he hw
  | .more hat b as, hb, hs, ha, hea, i, e, hi, he, hw => by
    simp only [Alts.bare, Bool.and_eq_true, Bool.not_eq_true'] at hb
    simp only [Alts.picks, hatPicks, hb.1.1, Bool.false_and, Bool.false_eq_true, if_false, List.mem_append] at he ⊢
    simp only [Alts.list, Spec.apart, Bool.and_eq_true, List.all_eq_true, Bool.or_eq_true, Bool.not_eq_true'] at ha
    rcases he with he | he
    · have := settled_head hq hps hv b (hs b (by simp [Alts.list])) i e hi he hw
      cases hp : b.picks q i with
      | nil => rw [hp] at this; simp at this
      | cons x l => rw [hp] at this; simpa using this
    · have hrec := apart_head hq hps hv as hb.2 (fun x hx => hs x (by simp [Alts.list, hx])) ha.2 (fun x hx => hea x (by simp [Alts.list, hx])) i e hi he hw
      have : b.picks q i = [] := by
        cases hp : b.picks q i with
        | nil => rfl
        | cons x l =>
          exfalso
          have hne : b.picks q i ≠ [] := by rw [hp]; simp
          have hlt := eats_picks q b i (hea b (by simp [Alts.list])) hne
          have nonull := fun {b : Sq} (h : b.eats = true) => eats_null b h
          obtain ⟨b', hb', he'⟩ := alts_mem q as i e he
          have hap : meets b.first b'.first = false := by
            rcases ha.1 b' hb' with hap | hap
            · exact hap
            · exact (parts_none hq hps b b' hap i e x hi he' hw (by rw [hp]; simp)).elim
          have f1 : ∃ c, q[i]? = some c ∧ b.first c = true := by
            rcases first_picks q b i hne with h | h | h
            · rw [nonull (hea b (by simp [Alts.list]))] at h; cases h
            · omega
            · exact h
          have f2 : ∃ c, q[i]? = some c ∧ b'.first c = true := by
            rcases first_at q b' i e he' with h | h | h
            · rw [nonull (hea b' (by simp [Alts.list, hb']))] at h; cases h.2
            · omega
            · exact h
          obtain ⟨c, hc, hf⟩ := f1
          obtain ⟨d, hd, hf'⟩ := f2
          rw [hc] at hd; cases hd
          have := (meets_iff b.first b'.first).2 ⟨c, hq c (List.mem_of_getElem? hc), hf, hf'⟩
          rw [hap] at this; cases this
      rw [this]; simpa using hrec

/-- What follows a group works at the preferred end whenever it works at any. -/
theorem group_head {q : List Int} (hq : ∀ c ∈ q, c ∈ allChars) {capture : Bool} {as : Alts} {s : Sq} (hb : bodyOk capture as s = true) (hp : plainGroups s = true)
    {α : Type} {F : Nat → List α} (hF : ∀ x, F x = [] ↔ caps q s x = []) {i e : Nat} (hi : i ≤ q.length) (he : (as.picks q i).head? = some e) :
    ((as.picks q i).flatMap F).head? = (F e).head? := by
  cases hl : as.picks q i with
  | nil => rw [hl] at he; simp at he
  | cons x l =>
    have hx : x = e := by rw [hl] at he; simpa using he
    subst hx
    rw [List.flatMap_cons]
    cases hFx : F x with
    | cons y ys => simp
    | nil =>
      rw [List.nil_append]
      have : l.flatMap F = [] := by
        rw [List.flatMap_eq_nil_iff]
        intro y hy
        rw [hF]
        cases hc : caps q s y with
        | nil => rfl
        | cons z zs =>
          exfalso
          have hne : caps q s y ≠ [] := by rw [hc]; simp
          have hx0 : caps q s x = [] := (hF x).1 hFx
          have hFa := body_facts hb
          rcases hFa.works with hv | ⟨hset, hap⟩
          · exact voids_caps q s hp hv x hx0
          · cases hv : s.voids with
            | true => exact voids_caps q s hp hv x hx0
            | false =>
              have hbare : as.bare = true := by
                simp only [bodyOk, Bool.and_eq_true] at hb; exact hb.1.1.1
              have hmem : y ∈ as.picks q i := by rw [hl]; simp [hy]
              have : (as.picks q i).head? = some y := by
                cases as with
                | last hat b =>
                  simp only [Alts.bare, Bool.and_eq_true, Bool.not_eq_true'] at hbare
                  simp only [Alts.picks, hatPicks, hbare.1, Bool.false_and, Bool.false_eq_true, if_false] at hmem ⊢
                  exact settled_head hq hp hv b (hset b (by simp [Alts.list])) i y hi hmem hne
                | more hat b as =>
                  refine apart_head hq hp hv _ hbare hset hap (fun b' hb' => ?_) i y hi hmem hne
                  simp only [bodyOk, Bool.and_eq_true, List.all_eq_true] at hb
                  exact (hb.2 b' hb').1
              rw [he] at this
              simp only [Option.some.injEq] at this
              subst this
              exact hne hx0
      rw [this]

/-! ## what is known of the modes -/

/-- The tree has been optimized, or the heuristics make no difference. -/
def KnownC (f : Bool) (s : Sq) : Prop := f = true ∨ s.stout = true

theorem KnownC.rest {f : Bool} {a : Atom} {k : Quant} {s : Sq} (h : KnownC f (.cons a k s)) : KnownC f s := by
  rcases h with h | h
  · exact Or.inl h
  · simp only [Sq.stout, Bool.and_eq_true] at h; exact Or.inr h.2

theorem not_held {k : Quant} (h1 : k.fixed = false) (h2 : k.mode ≠ .possessive) : k.held = false := by
  unfold Quant.held
  rw [h1]
  cases hm : k.mode with
  | possessive => exact absurd hm h2
  | greedy => rfl
  | lazy => rfl

/-- A quantified part that is not a group. -/
theorem stout_atom {a : Atom} (hp : Plain a) {k : Quant} {s : Sq} (h : partStout a k s = true) : atomStout a k s = true := by
  cases a with
  | group => simp [Plain, Atom.steady, Atom.skips] at hp
  | _ => simpa only [partStout] using h

theorem knownC_greedy {f : Bool} {a : Atom} {k : Quant} {s : Sq} (hp : Plain a) (hk : KnownC f (.cons a k s)) (h1 : k.fixed = false) (h2 : k.mode = .greedy)
    (h3 : f = true → clings a k s = true) (hok : atomOk a k s = true) : (s.solid || s.empty) = true ∧ a.steady = true ∧ (!(k.lo == 0 && k.hi == some 1)) = true := by
  rcases hk with hk | hk
  · unfold atomOk at hok
    rw [h2, h1, h3 hk] at hok
    simp only [Bool.false_or, if_true, Bool.and_eq_true] at hok
    exact ⟨by simp [hok.1.1], hok.1.2, hok.2⟩
  · simp only [Sq.stout, Bool.and_eq_true] at hk
    have := stout_atom hp hk.1
    unfold atomStout at this
    rw [not_held h1 (by rw [h2]; simp), h2] at this
    simp only [Bool.false_or, Bool.and_eq_true] at this
    exact ⟨this.2, this.1.1, this.1.2⟩

theorem knownC_lazy {f : Bool} {a : Atom} {k : Quant} {s : Sq} (hp : Plain a) (hk : KnownC f (.cons a k s)) (h1 : k.fixed = false) (h2 : k.mode = .lazy)
    (h3 : f = true → clings a k s = true) (hok : atomOk a k s = true) : s.solid = true := by
  rcases hk with hk | hk
  · unfold atomOk at hok
    rw [h2, h1, h3 hk] at hok
    simpa using hok
  · simp only [Sq.stout, Bool.and_eq_true] at hk
    have := stout_atom hp hk.1
    unfold atomStout at this
    rw [not_held h1 (by rw [h2]; simp), h2] at this
    simpa using this

theorem knownC_rep {f : Bool} {c : Bool} {as : Alts} {k : Quant} {s : Sq} (hk : KnownC f (.cons (.group c as) k s)) (h : k ≠ .once) :
    f = true ∨ (as.robust = true ∧ as.list.all Sq.shut = true ∧ k.held = true) := by
  rcases hk with hk | hk
  · exact Or.inl hk
  · right
    simp only [Sq.stout, Bool.and_eq_true] at hk
    have := hk.1
    cases k <;> first | exact absurd rfl h | (simp only [partStout, Bool.and_eq_true] at this; exact ⟨this.1.1, this.1.2, this.2⟩)

theorem knownC_greedy_rep {f : Bool} {c : Bool} {as : Alts} {k : Quant} {s : Sq} (hf : f = false) (hk : KnownC f (.cons (.group c as) k s)) (h1 : k.fixed = false)
    (h2 : k.mode = .greedy) : False := by
  rcases knownC_rep hk (by rintro rfl; simp [Quant.fixed] at h1) with h | h
  · rw [hf] at h; cases h
  · rw [not_held h1 (by rw [h2]; simp)] at h; cases h.2.2

/-- The body of a group that does not capture. -/
theorem knownC_non {f : Bool} {as : Alts} {s : Sq} (hk : KnownC f (.cons (.group false as) .once s)) : f = true ∨ as.robust = true := by
  rcases hk with hk | hk
  · exact Or.inl hk
  · simp only [Sq.stout, partStout, Bool.and_eq_true] at hk; exact Or.inr hk.1.1

/-- The body of a group that captures. -/
theorem knownC_cap {f : Bool} {as : Alts} {s : Sq} (hk : KnownC f (.cons (.group true as) .once s)) (hb : as.bare = true)
    (hx : ∀ a k, as = .last false (.cons a k (.nil false)) → k.fixed = true) :
    f = true ∨ (as.robust = true ∧ (s.empty = true ∨ as.list.all Sq.shut = true) ∧ s.quiet = true) := by
  rcases hk with hk | hk
  · exact Or.inl hk
  · right
    simp only [Sq.stout, Bool.and_eq_true] at hk
    have h := hk.1
    unfold partStout at h
    split at h
    · rename_i hat a k e _
      simp only [Atom.group.injEq, true_and] at e
      subst e
      simp only [Alts.bare, Bool.and_eq_true, Bool.not_eq_true'] at hb
      have hfix := hx a k (by rw [hb.1])
      simp only [Bool.and_eq_true] at h
      exact ⟨by simp [Alts.robust, Sq.robust, hfix], Or.inr (by simp [Alts.list, Sq.shut, Quant.held, hfix]), h.2⟩
    · rename_i e _
      simp only [Atom.group.injEq] at e
      obtain ⟨rfl, rfl⟩ := e
      simp only [Bool.not_true, Bool.false_or, Bool.and_eq_true, Bool.or_eq_true] at h
      exact ⟨h.1, h.2.1, h.2.2⟩
    all_goals grind

/-- A group that contains one repetition. -/
theorem knownC_loop {f : Bool} {a : Atom} {k : Quant} {s : Sq} (hk : KnownC f (.cons (.group true (.last false (.cons a k (.nil false)))) .once s)) :
    (f = true ∨ loopStout a k s = true) ∧ (f = true ∨ s.quiet = true) := by
  rcases hk with hk | hk
  · exact ⟨Or.inl hk, Or.inl hk⟩
  · simp only [Sq.stout, partStout, Bool.and_eq_true] at hk
    exact ⟨Or.inr hk.1.1, Or.inr hk.1.2⟩

/-! ## the tree -/

theorem fitsC_safe {f : Bool} {n : Nat} {s : Sq} {cs : List Node} (hf : FitsC f n s cs) (hkn : KnownC f s) (nul : Bool) (hn : s.dollar = true → nul = true) :
    safes nul cs = true ∧ ∀ i ∈ slotss cs, n ≤ i ∧ i < n + s.count := by
  have ws : ∀ {capture : Bool} {as : Alts} {s : Sq} {m : Node}, Whole f as.bodies m → bodyOk capture as s = true → safe nul m = true ∧ slots m = [] := by
    intro capture as s m hw hb
    exact whole_safe hw nul (fun x hx h => by rw [(body_facts hb).dollar x hx] at h; cases h)
  have ls : ∀ {a k s m}, Loop f a k s m → safe nul m = true ∧ slots m = [] := by
    intro a k s m h
    induction h with
    | possessive ha _ => simp [safes, slotss, safe, slots, atomic_safe ha, ha.noslot]
    | greedy ha _ _ => simp [safes, slotss, safe, slots, atomic_safe ha, ha.noslot, ha.size]
    | lazy ha _ _ => simp [safes, slotss, safe, slots, atomic_safe ha, ha.noslot]
    | wrap _ ih => simpa [safes, slotss, safe, slots] using ih
  have is : ∀ {n : Nat} {c : Bool} {as : Alts} {k : Quant} {s : Sq} {m : Node}, Inner f n as c m → repOk c as k s = true →
      safe nul m = true ∧ ∀ i ∈ slots m, n ≤ i ∧ i < n + (if c then 1 else 0) := by
    intro n c as k s m h hb
    cases h with
    | cap hw => obtain ⟨h3, h4⟩ := ws hw (rep_body hb); simp [safe, slots, safes, slotss, h3, h4]
    | simple hw => obtain ⟨h3, h4⟩ := ws hw (rep_body hb); simp [safe, slots, safes, slotss, h3, h4]
    | bare hw => obtain ⟨h3, h4⟩ := ws hw (rep_body hb); simp [h3, h4]
  have at' : ∀ {a : Atom} {k : Quant} {s : Sq}, (Sq.cons a k s).count = a.count + s.count := fun {_ _ _} => rfl
  induction hf with
  | nil => simp [safes, slotss]
  | dollar => have := hn rfl; simp [safes, slotss, safe, slots, this]
  | dollar' => have := hn rfl; simp [safes, slotss, safe, slots, this]
  | once hp ha hf ih =>
    obtain ⟨h1, h2⟩ := ih hkn.rest hn
    simp only [safes, slotss, safe, slots, atomic_safe ha, ha.noslot, h1, Bool.and_true, List.nil_append, List.append_nil, at', true_and]
    intro i hi; have := h2 i hi; omega
  | last hp ha => simp [safes, slotss, atomic_safe ha, ha.noslot]
  | exact hp ha hf hd ih =>
    obtain ⟨h1, h2⟩ := ih hkn.rest hn
    simp only [safes, slotss, safe, slots, atomic_safe ha, ha.noslot, h1, Bool.and_true, List.nil_append, List.append_nil, at', true_and]
    intro i hi; have := h2 i hi; omega
  | possessive hp ha hf h1 h2 ih =>
    obtain ⟨h1, h2⟩ := ih hkn.rest hn
    simp only [safes, slotss, safe, slots, atomic_safe ha, ha.noslot, h1, Bool.and_true, List.nil_append, List.append_nil, at', true_and]
    intro i hi; have := h2 i hi; omega
  | greedy hp ha hf h1 h2 h3 ih =>
    obtain ⟨h1, h2⟩ := ih hkn.rest hn
    simp only [safes, slotss, safe, slots, atomic_safe ha, ha.noslot, h1, Bool.and_true, List.nil_append, List.append_nil, at', true_and]
    refine ⟨by simp [ha.size], ?_⟩
    intro i hi; have := h2 i hi; omega
  | lazy hp ha hf h1 h2 h3 ih =>
    obtain ⟨h1, h2⟩ := ih hkn.rest hn
    simp only [safes, slotss, safe, slots, atomic_safe ha, ha.noslot, h1, Bool.and_true, List.nil_append, List.append_nil, at', true_and]
    intro i hi; have := h2 i hi; omega
  | cap hw hf hb _ ih =>
    obtain ⟨h1, h2⟩ := ih hkn.rest hn
    obtain ⟨h3, h4⟩ := ws hw hb
    simp only [safes, slotss, safe, slots, h3, h4, h1, Bool.and_true, List.nil_append, List.append_nil, at', true_and, Atom.count, if_true, List.mem_cons]
    rintro i (rfl | hi)
    · omega
    · have := h2 i hi; omega
  | capLoop hl hf hk hb ih =>
    obtain ⟨h1, h2⟩ := ih hkn.rest hn
    obtain ⟨h3, h4⟩ := ls hl
    simp only [safes, slotss, safe, slots, h3, h4, h1, Bool.and_true, List.nil_append, List.append_nil, at', true_and, Atom.count, if_true, List.mem_cons]
    rintro i (rfl | hi)
    · omega
    · have := h2 i hi; omega
  | non hw hf hb ih =>
    obtain ⟨h1, h2⟩ := ih hkn.rest hn
    obtain ⟨h3, h4⟩ := ws hw hb
    simp only [safes, slotss, safe, slots, h3, h4, h1, Bool.and_true, List.nil_append, List.append_nil, at', true_and]
    intro i hi; have := h2 i hi; omega
  | nonLast hw hb =>
    obtain ⟨h3, h4⟩ := ws hw hb
    simp [safes, slotss, h3, h4]
  | repPoss hin hf _ hb ih =>
    obtain ⟨h1, h2⟩ := ih hkn.rest hn
    obtain ⟨h3, h4⟩ := is hin hb
    simp only [safes, slotss, safe, slots, h3, h1, Bool.and_true, List.append_nil, at', true_and, Atom.count, List.mem_append, rep_count hb]
    rintro i (hi | hi)
    · have := h4 i hi; omega
    · have := h2 i hi; grind
  | repGreedy hff _ _ h1 h2 => exact (knownC_greedy_rep hff hkn h1 h2).elim
  | repExact hin hf _ hb ih =>
    obtain ⟨h1, h2⟩ := ih hkn.rest hn
    obtain ⟨h3, h4⟩ := is hin hb
    simp only [safes, slotss, safe, slots, h3, h1, Bool.and_true, List.append_nil, at', true_and, Atom.count, List.mem_append, rep_count hb]
    rintro i (hi | hi)
    · have := h4 i hi; omega
    · have := h2 i hi; grind

/-! ## injected children do not matter -/

theorem meets_none (f : Int → Bool) : meets f (fun _ => false) = false := by simp [meets]

theorem keeps_nil (a : Atom) (k : Quant) : keeps a k (.nil false) = false := by
  have : (Sq.nil false).shown = fun _ => false := by funext x; simp [Sq.shown]
  unfold keeps
  rw [this]
  cases k.mode <;> simp [meets_none]

theorem clings_nil (a : Atom) (k : Quant) : clings a k (.nil false) = false := by
  have : (Sq.nil false).looks = fun _ => false := by funext x; simp [Sq.looks]
  unfold clings
  rw [this]
  cases k.mode <;> simp [meets_none]

theorem atomic_calm {a : Atom} {m : Node} (h : Atomic a m) (cx : Ctx) (inj : List K) : run cx m inj = run cx m [] := by
  have := h.one
  simp only [oneCh, Bool.or_eq_true] at this
  rcases this with h | h
  · funext st; rw [run_single cx m h inj, run_single cx m h []]
  · funext st; rw [run_skipping cx m h inj, run_skipping cx m h []]

theorem simple_calm {cx : Ctx} {m : K} {cs : List Node} {inj : List K} (h : dfs (runs cx cs) inj = dfs (runs cx cs) []) :
    simpleMatch m (runs cx cs) inj = simpleMatch m (runs cx cs) [] := by
  funext st; simp only [simpleMatch, h]

theorem greedy_calm {cx : Ctx} {m : Node} {lo hi : Nat} {cs : List Node} (hne : cs ≠ []) (inj : List K) :
    run cx (.greedy m lo hi cs) inj = run cx (.greedy m lo hi cs) [] := by
  have : greedyBacktrack (runs cx cs) inj = greedyBacktrack (runs cx cs) [] := by
    funext st
    cases cs with
    | nil => exact absurd rfl hne
    | cons c cs => simp [greedyBacktrack, runs]
  funext st
  simp only [run]
  split
  · simp only [optionalMatch, this]
  · simp only [greedyMatch, this]

theorem lazyLoop_calm {cx : Ctx} {m : K} {cs : List M} (hne : cs.isEmpty = false) (inj : List K) (start : Int) : ∀ (n : Nat) (st : St),
    lazyLoop cx m cs inj start n st = lazyLoop cx m cs [] start n st
  | 0, st => rfl
  | n + 1, st => by
    simp only [lazyLoop, hne, Bool.false_eq_true, if_false, lazyLoop_calm hne inj start n]

theorem lazy_calm {cx : Ctx} {m : Node} {lo hi : Nat} {cs : List Node} (hne : cs ≠ []) (inj : List K) :
    run cx (.lazy m lo hi cs) inj = run cx (.lazy m lo hi cs) [] := by
  funext st
  have : (runs cx cs).isEmpty = false := by
    cases cs with
    | nil => exact absurd rfl hne
    | cons c cs => simp [runs]
  simp only [run, lazyMatch, lazyLoop_calm this inj]

theorem poss_calm {cx : Ctx} {a : Atom} {m : Node} (ha : Atomic a m) {lo hi : Nat} {cs : List Node} (inj : List K) :
    run cx (.possessive m lo hi cs) inj = run cx (.possessive m lo hi cs) [] := by
  funext st
  simp only [run, possessiveMatch, atomic_calm ha cx inj]

theorem fits_calm {f : Bool} {s : Sq} {cs : List Node} (hf : Fits f s cs) (hk : f = true ∨ s.shut = true) (cx : Ctx) (inj : List K) : dfs (runs cx cs) inj = dfs (runs cx cs) [] := by
  have rest : ∀ {a : Atom} {k : Quant} {s : Sq}, (f = true ∨ (Sq.cons a k s).shut = true) → f = true ∨ s.shut = true := by
    intro a k s h
    refine h.imp id (fun h => ?_)
    simp only [Sq.shut, Bool.and_eq_true] at h
    exact h.2
  have still : ∀ {a : Atom} {k : Quant}, (f = true ∨ (Sq.cons a k (.nil false)).shut = true) → k.fixed = false → k.mode ≠ .possessive →
      (f = true → keeps a k (.nil false) = true) → False := by
    intro a k h h1 h2 h3
    rcases h with h | h
    · have := h3 h; rw [keeps_nil] at this; cases this
    · simp [Sq.shut, Sq.empty, not_held h1 h2] at h
  induction hf with
  | nil => rfl
  | dollar => simp only [runs, run, dfs]; funext st; exact congrFun (simple_calm (cx := cx) (cs := []) (inj := inj) rfl) st
  | dollar' => simp only [runs, run, dfs]
  | once ha hf ih => simp only [runs, run, dfs]; funext st; exact congrFun (simple_calm (ih (rest hk))) st
  | last ha => simp only [runs, dfs]; funext st; rw [atomic_calm ha]
  | exact ha hf ih => simp only [runs, run, dfs]; rfl
  | possessive ha hf h1 h2 ih => simp only [runs, dfs]; funext st; rw [poss_calm ha]
  | greedy ha hf h1 h2 h3 ih =>
    simp only [runs, dfs]; funext st; rw [greedy_calm]
    intro hc; have := fits_empty hf hc; subst this
    exact still hk h1 (by rw [h2]; simp) h3
  | lazy ha hf h1 h2 h3 ih =>
    simp only [runs, dfs]; funext st; rw [lazy_calm]
    intro hc; have := fits_empty hf hc; subst this
    exact still hk h1 (by rw [h2]; simp) h3

theorem top_calm {f : Bool} {x : Bool × Sq} {t : Node} (h : Top f x t) (hk : f = true ∨ x.2.shut = true) (cx : Ctx) (inj : List K) : run cx t inj = run cx t [] := by
  cases h with
  | hat hf hne => simp only [run]; exact simple_calm (fits_calm hf hk cx inj)
  | plain hf =>
    have := fits_calm hf hk cx inj
    simpa only [runs, dfs] using this

theorem whole_calm {f : Bool} {xs : List (Bool × Sq)} {t : Node} (h : Whole f xs t) (hk : f = true ∨ ∀ x ∈ xs, x.2.shut = true) (cx : Ctx) (inj : List K) : run cx t inj = run cx t [] := by
  cases h with
  | one h => exact top_calm h (hk.imp id (fun h => h _ (by simp))) cx inj
  | alt h =>
    cases h with
    | nil => rfl
    | cons h1 h2 =>
      cases h2 with
      | nil => simp only [run, runs, dfs]; funext st; rw [top_calm h1 (hk.imp id (fun h => h _ (by simp))) cx inj]
      | cons h3 h4 => simp only [run, runs, dfs]; funext st; rw [top_calm h1 (hk.imp id (fun h => h _ (by simp))) cx inj]

theorem shut_bodies {f : Bool} {as : Alts} (h : f = true ∨ as.list.all Sq.shut = true) : f = true ∨ ∀ x ∈ as.bodies, x.2.shut = true := by
  refine h.imp id (fun h x hx => ?_)
  rw [List.all_eq_true] at h
  exact h _ (bodies_mem as x hx)

theorem inner_calm {f : Bool} {n : Nat} {as : Alts} {c : Bool} {m : Node} (h : Inner f n as c m) (hk : f = true ∨ as.list.all Sq.shut = true) (cx : Ctx) (inj : List K) : run cx m inj = run cx m [] := by
  cases h with
  | cap hw => simp only [run]; funext st; simp only [groupMatch, runs, dfs]
  | simple hw => simp only [run]; exact simple_calm rfl
  | bare hw => exact whole_calm hw (shut_bodies hk) cx inj

theorem fitsC_empty {f : Bool} {n : Nat} {s : Sq} {cs : List Node} (hf : FitsC f n s cs) (hc : cs = []) : s = .nil false := by
  cases hf <;> first | rfl | simp at hc

theorem fitsC_calm {f : Bool} {n : Nat} {s : Sq} {cs : List Node} (hf : FitsC f n s cs) (hkn : KnownC f s) (hq : f = true ∨ s.quiet = true) (cx : Ctx) (inj : List K) : dfs (runs cx cs) inj = dfs (runs cx cs) [] := by
  have rest : ∀ {a : Atom} {k : Quant} {s : Sq}, (f = true ∨ (Sq.cons a k s).quiet = true) → f = true ∨ s.quiet = true := by
    intro a k s h
    refine h.imp id (fun h => ?_)
    cases a <;> (simp only [Sq.quiet, Bool.and_eq_true] at h; exact h.2)
  have still : ∀ {a : Atom} {k : Quant}, Plain a → (f = true ∨ (Sq.cons a k (.nil false)).quiet = true) → k.fixed = false → k.mode ≠ .possessive →
      (f = true → clings a k (.nil false) = true) → False := by
    intro a k hp h h1 h2 h3
    rcases h with h | h
    · have := h3 h; rw [clings_nil] at this; cases this
    · cases a with
      | group => simp [Plain, Atom.steady, Atom.skips] at hp
      | _ => simp [Sq.quiet, Sq.empty, not_held h1 h2] at h
  induction hf generalizing inj with
  | nil => rfl
  | dollar => simp only [runs, run, dfs]; funext st; exact congrFun (simple_calm (cx := cx) (cs := []) (inj := inj) rfl) st
  | dollar' => simp only [runs, run, dfs]
  | once hp ha hf ih => simp only [runs, run, dfs]; funext st; exact congrFun (simple_calm (ih hkn.rest (rest hq) inj)) st
  | last hp ha => simp only [runs, dfs]; funext st; rw [atomic_calm ha]
  | exact hp ha hf hd ih => simp only [runs, run, dfs]; rfl
  | possessive hp ha hf h1 h2 ih => simp only [runs, dfs]; funext st; rw [poss_calm ha]
  | greedy hp ha hf h1 h2 h3 ih =>
    simp only [runs, dfs]; funext st; rw [greedy_calm]
    intro hc; have := fitsC_empty hf hc; subst this
    exact still hp hq h1 (by rw [h2]; simp) h3
  | lazy hp ha hf h1 h2 h3 ih =>
    simp only [runs, dfs]; funext st; rw [lazy_calm]
    intro hc; have := fitsC_empty hf hc; subst this
    exact still hp hq h1 (by rw [h2]; simp) h3
  | @cap n as m s cs hw hf hb _ ih =>
    simp only [runs, dfs]
    funext st
    simp only [run, groupMatch]
    rw [ih hkn.rest (rest hq), ← ih hkn.rest (rest hq) ((runs cx cs).map (fun c => c []) ++ [])]
  | @capLoop n a k m s cs hl hf hk hb ih =>
    simp only [runs, dfs]
    funext st
    simp only [run, groupMatch]
    rw [ih hkn.rest (rest hq), ← ih hkn.rest (rest hq) ((runs cx cs).map (fun c => c []) ++ [])]
  | non hw hf hb ih => simp only [runs, run, dfs]; funext st; exact congrFun (simple_calm (ih hkn.rest (rest hq) inj)) st
  | @nonLast n as m hw hb =>
    simp only [runs, dfs]; funext st
    rw [whole_calm hw (shut_bodies (hq.imp id (fun h => by simpa [Sq.quiet] using h)))]
  | repPoss hin hf h1 hb ih =>
    simp only [runs, dfs]; funext st
    simp only [run, possessiveMatch, inner_calm hin ((knownC_rep hkn (by rintro rfl; simp [Quant.fixed] at h1)).imp id (·.2.1)) cx inj]
  | repGreedy hff _ _ h1 h2 => exact (knownC_greedy_rep hff hkn h1 h2).elim
  | repExact hin hf _ hb ih => simp only [runs, run, dfs]; rfl

/-! ## a rest that restores the position -/

theorem steady_firm : ∀ s : Sq, s.steadyHead = true → s.firm = true
  | .nil _, h => by simp [Sq.steadyHead] at h
  | .cons a .once s, h => by simpa [Sq.firm, Sq.steadyHead] using h
  | .cons a (.star _) s, h | .cons a (.plus _) s, h | .cons a (.opt _) s, h | .cons a (.exact ..) s, h | .cons a (.atLeast ..) s, h
  | .cons a (.between ..) s, h => by simp [Sq.steadyHead] at h

theorem top_firm {f : Bool} {x : Bool × Sq} {t : Node} (h : Top f x t) (ha : x.2.steadyHead = true) : clean t = true ∧ flagFree t = true := by
  refine ⟨top_clean h (by simp [ha]), ?_⟩
  cases h with
  | hat hf hne => simp [flagFree]
  | plain hf =>
    have := (fits_firm hf (steady_firm _ ha)).2.2
    simpa [flagFreeHead] using this

theorem tops_firm {f : Bool} {xs : List (Bool × Sq)} {ts : List Node} (h : Tops f xs ts) (ha : ∀ x ∈ xs, x.2.steadyHead = true) :
    cleans ts = true ∧ (xs ≠ [] → flagFreeHead ts = true) := by
  induction h with
  | nil => exact ⟨rfl, fun h => absurd rfl h⟩
  | cons h1 h2 ih =>
    have h3 := top_firm h1 (ha _ (List.mem_cons_self ..))
    have h4 := ih (fun x hx => ha x (by simp [hx]))
    exact ⟨by simp [cleans, h3.1, h4.1], fun _ => by simp [flagFreeHead, h3.2]⟩

theorem whole_firm {f : Bool} {xs : List (Bool × Sq)} {t : Node} (h : Whole f xs t) (hne : xs ≠ []) (ha : ∀ x ∈ xs, x.2.steadyHead = true) :
    clean t = true ∧ flagFree t = true := by
  cases h with
  | alt h => have := tops_firm h ha; exact ⟨by simpa [clean] using this.1, by simpa [flagFree] using this.2 hne⟩
  | one h => exact top_firm h (ha _ (by simp))

theorem bodies_ne (as : Alts) : as.bodies ≠ [] := by cases as <;> simp [Alts.bodies]

theorem solid_atom {a : Atom} (hp : Plain a) (s : Sq) (h : (Sq.cons a .once s).solid = true) : a.steady = true := by
  cases a <;> first | simpa [Sq.solid] using h | simp [Plain, Atom.steady, Atom.skips] at hp

theorem solid_loop {a : Atom} (hp : Plain a) {k : Quant} (hk : k ≠ .once) (s : Sq) : (Sq.cons a k s).solid = false := by
  cases a <;> first | (simp [Plain, Atom.steady, Atom.skips] at hp; done) | (cases k <;> first | rfl | exact absurd rfl hk)

theorem solid_rep {c : Bool} {as : Alts} {k : Quant} (hk : k ≠ .once) {s : Sq} : (Sq.cons (.group c as) k s).solid = false := by
  cases k <;> first | exact absurd rfl hk | rfl

theorem fitsC_solid {f : Bool} {n : Nat} {s : Sq} {cs : List Node} (hf : FitsC f n s cs) (h : s.solid = true) :
    cs ≠ [] ∧ cleans cs = true ∧ flagFreeHead cs = true := by
  have grp : ∀ {as : Alts} {m : Node}, Whole f as.bodies m → as.list.all Sq.steadyHead = true → clean m = true ∧ flagFree m = true := by
    intro as m hw ha
    rw [List.all_eq_true] at ha
    exact whole_firm hw (bodies_ne as) (fun x hx => ha _ (bodies_mem as x hx))
  cases hf with
  | nil => simp [Sq.solid] at h
  | dollar => simp [cleans, clean, flagFreeHead, flagFree]
  | dollar' => simp [cleans, clean, flagFreeHead, flagFree]
  | once hp ha hf =>
    have := ha.steady (solid_atom hp _ h)
    simp [cleans, clean, flagFreeHead, flagFree, single_clean this, single_flagFree _ this]
  | last hp ha =>
    have := ha.steady (solid_atom hp _ h)
    simp [cleans, flagFreeHead, single_clean this, single_flagFree _ this]
  | exact hp => rw [solid_loop hp (by simp)] at h; cases h
  | possessive hp ha hf h1 h2 => rw [solid_loop hp (by rintro rfl; simp [Quant.fixed] at h1)] at h; cases h
  | greedy hp ha hf h1 h2 => rw [solid_loop hp (by rintro rfl; simp [Quant.fixed] at h1)] at h; cases h
  | lazy hp ha hf h1 h2 => rw [solid_loop hp (by rintro rfl; simp [Quant.fixed] at h1)] at h; cases h
  | cap => simp [Sq.solid] at h
  | capLoop => simp [Sq.solid] at h
  | non hw hf hb =>
    simp only [Sq.solid, Bool.not_false, Bool.true_and] at h
    have := grp hw h
    simp [cleans, clean, flagFreeHead, flagFree, this]
  | nonLast hw hb =>
    simp only [Sq.solid, Bool.not_false, Bool.true_and] at h
    have := grp hw h
    simp [cleans, flagFreeHead, this]
  | repPoss _ _ hk => rw [solid_rep (by rintro rfl; simp [Quant.fixed] at hk)] at h; cases h
  | repGreedy _ _ _ hk => rw [solid_rep (by rintro rfl; simp [Quant.fixed] at hk)] at h; cases h
  | repExact => simp [Sq.solid] at h

end ERegex

import Verif.Spec.Walk
import Verif.Props.FindGroups
import Verif.Proofs.Steps
import Verif.Props.Texts
/-!
# C33 : when a range-for over the matches ends
-/
set_option autoImplicit false
namespace ERegex.Props
open ERegex ERegex.Spec
open ERegex.Conformance (lit m)

section Walking
variable {f : Nat → Option Nat} {len : Nat}

theorem nextAt_unique {i s e s' e' : Nat} (h : NextAt f len i s e) (h' : NextAt f len i s' e') : s = s' ∧ e = e' := by
  have : s = s' := by
    rcases Nat.lt_trichotomy s s' with g | g | g
    · have := h'.2.2.2 s h.1 g; rw [h.2.2.1] at this; cases this
    · exact g
    · have := h.2.2.2 s' h'.1 g; rw [h'.2.2.1] at this; cases this
  subst this
  have := h.2.2.1.symm.trans h'.2.2.1
  exact ⟨rfl, by simpa using this⟩

theorem nextAt_none {i s e : Nat} (h : NextAt f len i s e) (h' : ∀ x, i ≤ x → x < len → f x = none) : False := by
  have := h' s h.1 h.2.1; rw [h.2.2.1] at this; cases this

theorem walk_unique {n i : Nat} {l l' : List (Nat × Nat)} {b b' : Bool} (h : Walk f len n i l b) (h' : Walk f len n i l' b') : l = l' ∧ b = b' := by
  induction h generalizing l' b' with
  | done h1 =>
    cases h' with
    | done => exact ⟨rfl, rfl⟩
    | cut h2 => exact (nextAt_none h2 h1).elim
    | hit h2 _ => exact (nextAt_none h2 h1).elim
  | cut h1 =>
    cases h' with
    | done h2 => exact (nextAt_none h1 h2).elim
    | cut => exact ⟨rfl, rfl⟩
  | hit h1 _ ih =>
    cases h' with
    | done h2 => exact (nextAt_none h1 h2).elim
    | hit h2 h3 =>
      obtain ⟨rfl, rfl⟩ := nextAt_unique h1 h2
      obtain ⟨rfl, rfl⟩ := ih h3
      exact ⟨rfl, rfl⟩

/-- A walk that ends passes all matches there are to reach, and none is empty. -/
theorem walk_ends {n i : Nat} {l : List (Nat × Nat)} {b : Bool} (h : Walk f len n i l b) (hb : b = true) {j s e : Nat} (hs : Walked f len i j)
    (hn : NextAt f len j s e) : e ≠ s := by
  induction h generalizing j s e with
  | done h1 =>
    cases hs with
    | refl => exact (nextAt_none hn h1).elim
    | step g _ => exact (nextAt_none g h1).elim
  | cut => cases hb
  | @hit n i s' e' l b h1 _ ih =>
    cases hs with
    | refl =>
      obtain ⟨rfl, rfl⟩ := nextAt_unique h1 hn
      intro he
      subst he
      exact ih hb .refl ⟨Nat.le_refl _, hn.2.1, hn.2.2.1, fun x h1 h2 => by omega⟩ rfl
    | step g g2 =>
      obtain ⟨rfl, rfl⟩ := nextAt_unique h1 g
      exact ih hb g2 hn

theorem nextAt_or (i : Nat) : (∀ x, i ≤ x → x < len → f x = none) ∨ ∃ s e, NextAt f len i s e := by
  have key : ∀ k i, len - i = k → (∀ x, i ≤ x → x < len → f x = none) ∨ ∃ s e, NextAt f len i s e := by
    intro k
    induction k with
    | zero => intro i h; exact Or.inl (fun x h1 h2 => by omega)
    | succ k ih =>
      intro i h
      cases hf : f i with
      | some e => exact Or.inr ⟨i, e, Nat.le_refl _, by omega, hf, fun x h1 h2 => by omega⟩
      | none =>
        rcases ih (i + 1) (by omega) with g | ⟨s, e, g1, g2, g3, g4⟩
        · refine Or.inl (fun x h1 h2 => ?_)
          by_cases hx : x = i
          · subst hx; exact hf
          · exact g x (by omega) h2
        · refine Or.inr ⟨s, e, by omega, g2, g3, fun x h1 h2 => ?_⟩
          by_cases hx : x = i
          · subst hx; exact hf
          · exact g4 x (by omega) h2
  exact key _ i rfl

/-- If all of them take a character, the walk ends within the length of the text. -/
theorem walk_of_take (hf : ∀ s e, s < len → f s = some e → e ≤ len) : ∀ (k i : Nat), len - i ≤ k → AllTake f len i → ∃ l, Walk f len k i l true := by
  intro k
  induction k with
  | zero => intro i h _; exact ⟨[], .done (fun x h1 h2 => by omega)⟩
  | succ k ih =>
    intro i h ha
    rcases nextAt_or (f := f) (len := len) i with g | ⟨s, e, g⟩
    · exact ⟨[], .done g⟩
    · have h1 := ha i s e .refl g
      have h2 := hf s e g.2.1 g.2.2.1
      have h3 := g.1
      obtain ⟨l, hl⟩ := ih e (by omega) (fun j s' e' hj hn => ha j s' e' (.step g hj) hn)
      exact ⟨_, .hit g hl⟩

end Walking

theorem nextLoop_lt {cx : Ctx} {t : Node} : ∀ (f : Nat) (st st' : St), nextLoop cx (run cx t []) f st = .ok st' → st'.accepted = true → st'.start < cx.qend
  | 0, st, st', h, ha => by
    simp only [nextLoop] at h
    split at h
    · cases h
    · cases h; cases ha
  | f + 1, st, st', h, ha => by
    simp only [nextLoop] at h
    split at h
    · rename_i hlt
      split at h
      · cases h
      · rename_i st1 e1
        split at h
        · cases h
          rw [run_start cx t st _ e1]; exact hlt
        · exact nextLoop_lt f _ st' h ha
    · cases h; cases ha

/-- What the search of a program does, in terms of `f`. -/
structure Finder (cx : Ctx) (t : Node) (fuel : Nat) (f : Nat → Option Nat) : Prop where
  make : ∃ st, construct cx t fuel = .ok st ∧
    (st.accepted = true → ∃ s e : Nat, toView st = some ((s : Int), (e : Int)) ∧ f s = some e ∧ ∀ x, x < s → f x = none) ∧
    (st.accepted = false → ∀ x, (x = 0 ∨ x < cx.query.length) → f x = none)
  next : ∀ st, Reach cx t st → ∀ a i : Nat, toView st = some ((a : Int), (i : Int)) → ∃ st', next cx t fuel st = .ok st' ∧
    (st'.accepted = true → ∃ s e : Nat, toView st' = some ((s : Int), (e : Int)) ∧ i ≤ s ∧ f s = some e ∧ ∀ x, i ≤ x → x < s → f x = none) ∧
    (st'.accepted = false → ∀ x, i ≤ x → x < cx.query.length → f x = none)

theorem view_start {st : St} {s e : Nat} (h : toView st = some ((s : Int), (e : Int))) : st.start = s := by
  simp only [toView] at h
  split at h
  · simp only [Option.some.injEq, Prod.mk.injEq] at h; exact h.1
  · cases h

theorem Finder.visit {cx : Ctx} {t : Node} {fuel : Nat} {f : Nat → Option Nat} (hf : Finder cx t fuel f) (r : St) :
    ∀ (n : Nat) (it : St) (s e : Nat), Reach cx t it → toView it = some ((s : Int), (e : Int)) →
      ∃ l b, Walk f cx.query.length n e l b ∧ visit cx t fuel (endR r) (n + 1) it = some (span (s, e) :: l.map span, b)
  | 0, it, s, e, hr, hv => by
    obtain ⟨st', f1, f2, f3⟩ := hf.next it hr s e hv
    have hacc := view_eq hv
    simp only [ERegex.visit, neqR_end, hacc, if_true, f1, hv]
    cases ha : st'.accepted with
    | true =>
      obtain ⟨s', e', g1, g2, g3, g4⟩ := f2 ha
      have h1 := nextLoop_lt fuel _ _ f1 ha
      rw [view_start g1] at h1
      exact ⟨[], false, .cut ⟨g2, by simp only [Ctx.qend] at h1; omega, g3, g4⟩, by simp [span]⟩
    | false => exact ⟨[], true, .done (f3 ha), by simp [span]⟩
  | n + 1, it, s, e, hr, hv => by
    obtain ⟨st', f1, f2, f3⟩ := hf.next it hr s e hv
    have hacc := view_eq hv
    rw [ERegex.visit]
    simp only [neqR_end, hacc, if_true, f1, hv]
    cases ha : st'.accepted with
    | true =>
      obtain ⟨s', e', g1, g2, g3, g4⟩ := f2 ha
      have h1 := nextLoop_lt fuel _ _ f1 ha
      rw [view_start g1] at h1
      obtain ⟨l, b, i1, i2⟩ := hf.visit r n st' s' e' (.next hr f1) g1
      refine ⟨(s', e') :: l, b, .hit ⟨g2, by simp only [Ctx.qend] at h1; omega, g3, g4⟩ i1, ?_⟩
      rw [i2]; simp [span]
    | false =>
      refine ⟨[], true, .done (f3 ha), ?_⟩
      simp [ERegex.visit, neqR_end, ha, span]

theorem construct_lt {cx : Ctx} {t : Node} {fuel : Nat} {st : St} (h : construct cx t fuel = .ok st) (ha : st.accepted = true) (hq : cx.query ≠ []) : st.start < cx.qend := by
  unfold construct at h
  split at h
  · cases h
  · rename_i st1 e1
    split at h
    · cases h
      rw [run_start cx t _ _ e1]
      have := List.length_pos_iff.2 hq
      simp only [initSt, Ctx.qend]; omega
    · exact nextLoop_lt fuel _ st h ha

/-- The range-for visits the walk from the start of the query. -/
theorem Finder.range {cx : Ctx} {t : Node} {fuel : Nat} {f : Nat → Option Nat} (hf : Finder cx t fuel f) (hq : cx.query ≠ [])
    (n : Nat) (r : St) : ∃ l b, Walk f cx.query.length n 0 l b ∧ rangeFor cx t fuel n r = some (l.map span, b) := by
  obtain ⟨st, e1, e2, e3⟩ := hf.make
  simp only [rangeFor, beginR, e1]
  cases ha : st.accepted with
  | true =>
    obtain ⟨s, e, g1, g2, g3⟩ := e2 ha
    have h1 := construct_lt e1 ha hq
    rw [view_start g1] at h1
    have hn : NextAt f cx.query.length 0 s e := ⟨Nat.zero_le _, by simp only [Ctx.qend] at h1; omega, g2, fun x _ => g3 x⟩
    cases n with
    | zero => exact ⟨[], false, .cut hn, by simp [ERegex.visit, neqR_end, ha]⟩
    | succ n =>
      obtain ⟨l, b, i1, i2⟩ := hf.visit r n st s e (.make e1) g1
      exact ⟨(s, e) :: l, b, .hit hn i1, by rw [i2]; rfl⟩
  | false =>
    refine ⟨[], true, .done (fun x _ h => e3 ha x (Or.inr h)), ?_⟩
    cases n <;> simp [ERegex.visit, neqR_end, ha]

/-- … and ends if and only if none of the matches it comes to is empty. -/
theorem Finder.ends {cx : Ctx} {t : Node} {fuel : Nat} {f : Nat → Option Nat} (hf : Finder cx t fuel f) (hq : cx.query ≠ [])
    (hb : ∀ s e, s < cx.query.length → f s = some e → s ≤ e ∧ e ≤ cx.query.length) (r : St) :
    (∃ n l, rangeFor cx t fuel n r = some (l, true)) ↔ AllTake f cx.query.length 0 := by
  constructor
  · rintro ⟨n, l, h⟩ j s e hj hn
    obtain ⟨l', b, h1, h2⟩ := hf.range hq n r
    rw [h2] at h
    have hb' : b = true := by simpa using (Prod.mk.inj (Option.some.inj h)).2
    have h3 := walk_ends h1 hb' hj hn
    have h4 := (hb s e hn.2.1 hn.2.2.1).1
    omega
  · intro h
    obtain ⟨l, hl⟩ := walk_of_take (fun s e h1 h2 => (hb s e h1 h2).2) cx.query.length 0 (by omega) h
    obtain ⟨l', b, h1, h2⟩ := hf.range hq cx.query.length r
    obtain ⟨rfl, rfl⟩ := walk_unique hl h1
    exact ⟨_, _, h2⟩

/-- On the empty query it always ends: there is at most the empty match. -/
theorem Finder.empty {cx : Ctx} {t : Node} {fuel : Nat} {f : Nat → Option Nat} (hf : Finder cx t fuel f) (hq : cx.query = []) (r : St) :
    ∃ l, rangeFor cx t fuel 1 r = some (l, true) := by
  obtain ⟨st, e1, e2, e3⟩ := hf.make
  simp only [rangeFor, beginR, e1]
  cases ha : st.accepted with
  | true =>
    obtain ⟨s, e, g1, g2, g3⟩ := e2 ha
    obtain ⟨st', f1, f2, f3⟩ := hf.next st (.make e1) s e g1
    simp only [ERegex.visit, neqR_end, ha, if_true, f1]
    cases hb : st'.accepted with
    | false => exact ⟨_, rfl⟩
    | true =>
      exfalso
      have h1 := nextLoop_lt fuel _ _ f1 hb
      obtain ⟨s', e', g1', _⟩ := f2 hb
      rw [view_start g1'] at h1
      simp [Ctx.qend, hq] at h1
      omega
  | false => exact ⟨[], by simp [ERegex.visit, neqR_end, ha]⟩

/-- The occurrences described by a pattern with groups: where the preferred way to match ends. -/
def bestEnd (as : Alts) (q : List Int) (x : Nat) : Option Nat := (bestWay as q x).map (fun w => w.1)

theorem regular_finder (as : Alts) (hr : as.regular = true) (hc : ∀ c ∈ as.spell, c ∈ allChars) :
    ∃ t, compile as.spell = some t ∧ ∀ (cx : Ctx), (∀ c ∈ cx.query, c ∈ allChars) → cx.query.length < 4294967295 →
      (as.dollar = true → cx.post.head? = some 0) → ∀ (fuel : Nat), cx.query.length ≤ fuel → Finder cx t fuel (bestAt as cx.query) := by
  obtain ⟨t, ht, hcon⟩ := C48_preferred_partial as hr hc
  obtain ⟨t', ht', hnext⟩ := C48_next_partial as hr hc
  rw [ht] at ht'; cases ht'
  refine ⟨t, ht, fun cx hq hlen hd fuel hfuel => ⟨?_, fun st hst a i hv => ?_⟩⟩
  · obtain ⟨st, e1, e2, e3⟩ := hcon cx hq hlen hd fuel hfuel
    refine ⟨st, e1, fun ha => ?_, fun ha x hx => best_none (e3 ha x hx)⟩
    obtain ⟨s, e, g1, _, g2, g3⟩ := e2 ha
    exact ⟨s, e, g1, g2, fun x hx => best_none (g3 x (Nat.zero_le _) hx)⟩
  · obtain ⟨st', e1, e2, e3⟩ := hnext cx hq hlen hd fuel hfuel st hst a i hv
    refine ⟨st', e1, fun ha => ?_, fun ha x h1 h2 => best_none (e3 ha x h1 h2)⟩
    obtain ⟨s, e, g1, g0, g2, g3⟩ := e2 ha
    exact ⟨s, e, g1, g0, g2, fun x h1 h2 => best_none (g3 x h1 h2)⟩

theorem cap_finder (as : Alts) (hr : as.capRegular = true) (hc : ∀ c ∈ as.spell, c ∈ allChars) :
    ∃ t, compile as.spell = some t ∧ ∀ (cx : Ctx), (∀ c ∈ cx.query, c ∈ allChars) → cx.query.length < 4294967295 →
      (as.dollar = true → cx.post.head? = some 0) → ∀ (fuel : Nat), cx.query.length ≤ fuel → Finder cx t fuel (bestEnd as cx.query) := by
  obtain ⟨t, ht, hcon⟩ := C49_captures_partial as hr hc
  obtain ⟨t', ht', hnext⟩ := C49_next_partial as hr hc
  rw [ht] at ht'; cases ht'
  have hnone : ∀ {q : List Int} {x : Nat}, as.ways q 0 x noCaps = [] → bestEnd as q x = none := fun h => by simp [bestEnd, bestWay, h]
  refine ⟨t, ht, fun cx hq hlen hd fuel hfuel => ⟨?_, fun st hst a i hv => ?_⟩⟩
  · obtain ⟨st, e1, e2, e3⟩ := hcon cx hq hlen hd fuel hfuel
    refine ⟨st, e1, fun ha => ?_, fun ha x hx => hnone (e3 ha x hx)⟩
    obtain ⟨s, w, g1, _, g2, g3⟩ := e2 ha
    refine ⟨s, w.1, by have := g1.1; simpa [getGroup] using this, by simp [bestEnd, bestWay, g2], fun x hx => hnone (g3 x (Nat.zero_le _) hx)⟩
  · obtain ⟨st', e1, e2, e3⟩ := hnext cx hq hlen hd fuel hfuel st hst a i hv
    refine ⟨st', e1, fun ha => ?_, fun ha x h1 h2 => hnone (e3 ha x h1 h2)⟩
    obtain ⟨s, w, g1, g0, g2, g3⟩ := e2 ha
    exact ⟨s, w.1, by have := g1.1; simpa [getGroup] using this, g0, by simp [bestEnd, bestWay, g2], fun x h1 h2 => hnone (g3 x h1 h2)⟩

theorem bestAt_le {as : Alts} {q : List Int} {s e : Nat} (hs : s < q.length) (h : bestAt as q s = some e) : s ≤ e ∧ e ≤ q.length :=
  alts_le (Nat.le_of_lt hs) (List.mem_of_mem_head? h)

theorem bestEnd_le {as : Alts} (hr : as.capRegular = true) {q : List Int} {s e : Nat} (hs : s < q.length) (h : bestEnd as q s = some e) : s ≤ e ∧ e ≤ q.length := by
  unfold bestEnd bestWay at h
  cases hw : (as.ways q 0 s noCaps).head? with
  | none => rw [hw] at h; cases h
  | some w =>
    rw [hw] at h
    have hwe : w.1 = e := by simpa using h
    subst hwe
    have := den_le q _ _ _ (alts_sound q as (alts_fair as (fun s hs => sane_alts as (regular_sane hr) s hs)) 0 s noCaps w (List.mem_of_mem_head? hw))
    exact ⟨this.1, this.2 (Nat.le_of_lt hs)⟩

/-- **C50 (partial), with empty matches.** For every regular pattern (C48; it may match the empty text) and every non-empty query: the first `n` steps of
a range-for visit exactly the first `n` matches of the walk from match to match, and it ends exactly when there are no more.  An empty match that is not
at the end of the query is followed by itself. -/
theorem C50_walk_partial (as : Alts) (hr : as.regular = true) (hc : ∀ c ∈ as.spell, c ∈ allChars) :
    ∃ t, compile as.spell = some t ∧ ∀ (cx : Ctx), (∀ c ∈ cx.query, c ∈ allChars) → cx.query.length < 4294967295 →
      (as.dollar = true → cx.post.head? = some 0) → cx.query ≠ [] → ∀ (fuel : Nat), cx.query.length ≤ fuel → ∀ n r,
        ∃ l b, Walk (bestAt as cx.query) cx.query.length n 0 l b ∧ rangeFor cx t fuel n r = some (l.map span, b) := by
  obtain ⟨t, ht, h⟩ := regular_finder as hr hc
  exact ⟨t, ht, fun cx hq hlen hd hne fuel hf n r => (h cx hq hlen hd fuel hf).range hne n r⟩

/-- **C33, exactly when it ends (partial).** For every regular pattern (C48; it may match the empty text) and every query: a range-for over the matches
ends if and only if the query is empty or none of the matches it comes to is empty.  Missing: the patterns that are not regular. -/
theorem C33_ends_iff_partial (as : Alts) (hr : as.regular = true) (hc : ∀ c ∈ as.spell, c ∈ allChars) :
    ∃ t, compile as.spell = some t ∧ ∀ (cx : Ctx), (∀ c ∈ cx.query, c ∈ allChars) → cx.query.length < 4294967295 →
      (as.dollar = true → cx.post.head? = some 0) → ∀ (fuel : Nat), cx.query.length ≤ fuel → ∀ r,
        (∃ n l, rangeFor cx t fuel n r = some (l, true)) ↔ (cx.query = [] ∨ AllTake (bestAt as cx.query) cx.query.length 0) := by
  obtain ⟨t, ht, h⟩ := regular_finder as hr hc
  refine ⟨t, ht, fun cx hq hlen hd fuel hf r => ?_⟩
  by_cases he : cx.query = []
  · obtain ⟨l, hl⟩ := (h cx hq hlen hd fuel hf).empty he r
    exact ⟨fun _ => Or.inl he, fun _ => ⟨1, l, hl⟩⟩
  · rw [(h cx hq hlen hd fuel hf).ends he (fun s e h1 h2 => bestAt_le h1 h2) r]
    exact ⟨Or.inr, fun g => g.resolve_left he⟩

/-- **C33, exactly when it ends (partial).** The same for the patterns with groups that meet the condition of C49. -/
theorem C33_groups_iff_partial (as : Alts) (hr : as.capRegular = true) (hc : ∀ c ∈ as.spell, c ∈ allChars) :
    ∃ t, compile as.spell = some t ∧ ∀ (cx : Ctx), (∀ c ∈ cx.query, c ∈ allChars) → cx.query.length < 4294967295 →
      (as.dollar = true → cx.post.head? = some 0) → ∀ (fuel : Nat), cx.query.length ≤ fuel → ∀ r,
        (∃ n l, rangeFor cx t fuel n r = some (l, true)) ↔ (cx.query = [] ∨ AllTake (bestEnd as cx.query) cx.query.length 0) := by
  obtain ⟨t, ht, h⟩ := cap_finder as hr hc
  refine ⟨t, ht, fun cx hq hlen hd fuel hf r => ?_⟩
  by_cases he : cx.query = []
  · obtain ⟨l, hl⟩ := (h cx hq hlen hd fuel hf).empty he r
    exact ⟨fun _ => Or.inl he, fun _ => ⟨1, l, hl⟩⟩
  · rw [(h cx hq hlen hd fuel hf).ends he (fun s e h1 h2 => bestEnd_le hr h1 h2) r]
    exact ⟨Or.inr, fun g => g.resolve_left he⟩

theorem walked_snoc {f : Nat → Option Nat} {len i j s e : Nat} (h : Walked f len i j) (hn : NextAt f len j s e) : Walked f len i e := by
  induction h with
  | refl => exact .step hn .refl
  | step g _ ih => exact .step g (ih hn)

/-- A run of `r` characters, cut at the most the quantifier takes. -/
def upToMost (hi : Option Nat) (r : Nat) : Nat := match hi with | none => r | some h => min h r

theorem upToMost_le (hi : Option Nat) (r : Nat) : upToMost hi r ≤ r := by
  cases hi with
  | none => exact Nat.le_refl _
  | some h => exact Nat.min_le_right _ _

theorem upToMost_pos {hi : Option Nat} {r : Nat} (hh : hi ≠ some 0) (hr : 1 ≤ r) : 1 ≤ upToMost hi r := by
  cases hi with
  | none => exact hr
  | some h =>
    have : h ≠ 0 := fun e => hh (by rw [e])
    simp only [upToMost]; omega

theorem take_iff (S : Int → Bool) (hi : Option Nat) (hh : hi ≠ some 0) (q : List Int) : AllTake (runAt S 0 hi q) q.length 0 ↔ ∀ c ∈ q, S c = true := by
  have hf : ∀ x, runAt S 0 hi q x = some (x + upToMost hi (runLen S (q.drop x))) := fun x => by
    cases hi <;> simp [runAt, upToMost]
  constructor
  · intro h
    have key : ∀ k i, q.length - i ≤ k → Walked (runAt S 0 hi q) q.length 0 i → ∀ x c, i ≤ x → q[x]? = some c → S c = true := by
      intro k
      induction k with
      | zero =>
        intro i hk _ x c hx hc
        rw [List.getElem?_eq_none (by omega)] at hc; cases hc
      | succ k ih =>
        intro i hk hw x c hx hc
        have hx' : x < q.length := by
          rcases Nat.lt_or_ge x q.length with g | g
          · exact g
          · rw [List.getElem?_eq_none g] at hc; cases hc
        have hn : NextAt (runAt S 0 hi q) q.length i i _ := ⟨Nat.le_refl _, by omega, hf i, fun y h1 h2 => by omega⟩
        have hlt := h i i _ hw hn
        rcases Nat.lt_or_ge x (i + upToMost hi (runLen S (q.drop i))) with g | g
        · exact run_all (q := q) (s := i) (n := upToMost hi (runLen S (q.drop i))) (upToMost_le _ _) hx g hc
        · exact ih _ (by omega) (walked_snoc hw hn) x c g hc
    intro c hc
    obtain ⟨x, hx⟩ := List.mem_iff_getElem?.1 hc
    exact key _ 0 (Nat.le_refl _) .refl x c (Nat.zero_le _) hx
  · intro h j s e _ hn
    have h1 : 1 ≤ runLen S (q.drop s) := run_pos.2 ⟨q[s]'hn.2.1, List.getElem?_eq_getElem hn.2.1, h _ (List.getElem_mem _)⟩
    have h2 := hn.2.2.1
    rw [hf] at h2
    have h3 := Option.some.inj h2
    have := upToMost_pos hh h1
    omega

/-- **C33.** For every character, escape but `\s` and not negated class `X` without `\s`, and every quantifier that allows none but not lazily (`*`, `?`,
`{0,n}`, `*+`, …): a range-for over the matches of `X*` in a query ends if and only if every character of the query belongs to `X`. -/
theorem C33_star (a : Atom) (ha : a.ok = true) (hst : a.steady = true) (k : Quant) (hk : k.sane = true) (hm : k.mode ≠ .lazy) (h0 : k.lo = 0) (hh : k.hi ≠ some 0)
    (hc : ∀ c ∈ a.spell ++ k.spell, c ∈ allChars) :
    ∃ t, compile (a.spell ++ k.spell) = some t ∧ ∀ (cx : Ctx), (∀ c ∈ cx.query, c ∈ allChars) → cx.query.length < 4294967295 →
      ∀ (fuel : Nat), cx.query.length ≤ fuel → ∀ r, (∃ n l, rangeFor cx t fuel n r = some (l, true)) ↔ ∀ c ∈ cx.query, a.set c = true := by
  have hspell : (Alts.last false (.cons a k (.nil false))).spell = a.spell ++ k.spell := by simp [Alts.spell, Sq.spell]
  obtain ⟨t, ht, h⟩ := C33_ends_iff_partial (.last false (.cons a k (.nil false))) (loop_regular ha hst hk hm) (by rw [hspell]; exact hc)
  rw [hspell] at ht
  refine ⟨t, ht, fun cx hq hlen fuel hf r => ?_⟩
  rw [h cx hq hlen (by simp [Alts.dollar, Sq.dollar]) fuel hf r]
  have : bestAt (.last false (.cons a k (.nil false))) cx.query = runAt a.set 0 k.hi cx.query := funext (fun x => by rw [← h0]; exact loop_best a k hk hm cx.query x)
  rw [this, take_iff _ _ hh]
  constructor
  · rintro (h | h)
    · rw [h]; simp
    · exact h
  · exact Or.inr

-- `\d*` on `12` ends, on `1a` it does not; `(a*)b?` over `aab` ends
example : (Atom.esc 100).ok = true ∧ (Atom.esc 100).steady = true ∧ (Quant.star .greedy).sane = true ∧ (Atom.esc 100).spell ++ (Quant.star .greedy).spell = str "\\d*" ∧
    (∀ c ∈ str "\\d*", c ∈ allChars) ∧ (Quant.star .greedy).hi = none := by decide +kernel
example : (compile (str "\\d*")).bind (fun t => rangeFor (lit "12") t 9 9 (initSt t)) = some ([some (0, 2)], true) ∧
    (compile (str "\\d*")).bind (fun t => rangeFor (lit "1a") t 9 4 (initSt t)) = some ([some (0, 1), some (1, 1), some (1, 1), some (1, 1)], false) ∧
    (compile (str "\\d*")).bind (fun t => rangeFor (lit "") t 9 4 (initSt t)) = some ([some (0, 0)], true) := by decide +kernel

end ERegex.Props

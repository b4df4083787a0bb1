import Verif.Proofs.CaptureBuild
/-!
# Captures: repetitions in front of a rest that captures

The rest is run several times and may write captures each time; what counts is the state from which the last, accepted run
started.
-/
set_option autoImplicit false
namespace ERegex
open ERegex.Spec ERegex.Props

section
variable {cx : Ctx} {P : Par}

/-- Total on the invariant, and accepts exactly at the offsets of `W`. -/
def Judge (cx : Ctx) (P : Par) (b : K) (W : Nat → Prop) : Prop := ∀ (st : St) (x : Nat), Good cx P st → st.pos = x → st.accepted = true →
  ∃ st', b st = some st' ∧ Good cx P st' ∧ (st'.accepted = true ↔ W x)

/-- The state comes from an accepted state at offset `x`. -/
def From (cx : Ctx) (P : Par) (b : K) (x : Nat) (st' : St) : Prop := ∃ st0, Good cx P st0 ∧ st0.pos = x ∧ st0.accepted = true ∧ b st0 = some st'

theorem From.iff {b : K} {W : Nat → Prop} (hj : Judge cx P b W) {x : Nat} {st' : St} (h : From cx P b x st') : st'.accepted = true ↔ W x := by
  obtain ⟨st0, h1, h2, h3, h4⟩ := h
  obtain ⟨r, e, _, hr⟩ := hj st0 x h1 h2 h3
  rw [h4] at e; cases e; exact hr

theorem From.good {b : K} {W : Nat → Prop} (hj : Judge cx P b W) {x : Nat} {st' : St} (h : From cx P b x st') : Good cx P st' := by
  obtain ⟨st0, h1, h2, h3, h4⟩ := h
  obtain ⟨r, e, hg, _⟩ := hj st0 x h1 h2 h3
  rw [h4] at e; cases e; exact hg

/-- The backtracking loop of a greedy repetition. -/
theorem bt_from {p : Int → Bool} {b : K} {W : Nat → Prop} (hj : Judge cx P b W) (hcl : Clean b) (s : Nat) (hs : P.s ≤ s) : ∀ (n : Nat) (st : St) (f : Bool) (st' : St),
    Good cx P st → st.pos = (s + n : Nat) → st.accepted = true → InClass cx.query p s n → s + n ≤ cx.query.length →
    btLoop b (charStep cx p) (s : Int) n st = some (f, st') →
    (f = true → ∃ d, 0 < d ∧ d ≤ n ∧ From cx P b (s + d) st' ∧ st'.accepted = true ∧ ∀ d', d < d' → d' ≤ n → ¬ W (s + d')) ∧
    (f = false → Good cx P st' ∧ st'.pos = s ∧ st'.accepted = true ∧ ∀ d', 0 < d' → d' ≤ n → ¬ W (s + d')) := by
  intro n
  induction n with
  | zero =>
    intro st f st' hg hp ha _ _ e
    simp only [btLoop, Option.some.injEq, Prod.mk.injEq] at e
    obtain ⟨rfl, rfl⟩ := e
    exact ⟨by simp, fun _ => ⟨hg, by simpa using hp, ha, by intro d' h1 h2; omega⟩⟩
  | succ n ih =>
    intro st f st' hg hp ha hin hlen e
    obtain ⟨st1, h1, hg1, hw⟩ := hj st (s + (n + 1)) hg hp ha
    simp only [btLoop, h1] at e
    split at e
    · rename_i hacc
      simp only [Option.some.injEq, Prod.mk.injEq] at e
      obtain ⟨rfl, rfl⟩ := e
      exact ⟨fun _ => ⟨n + 1, by omega, by omega, ⟨st, hg, hp, ha, h1⟩, hacc, by intro d' h1 h2; omega⟩, by simp⟩
    · rename_i hrej
      have hrej' : st1.accepted = false := by simpa using hrej
      have hnw : ¬ W (s + (n + 1)) := fun h => hrej (hw.2 h)
      have hpos := hcl _ _ (by rw [hp]; omega) h1 hrej'
      have e1 : (st1.pos - (s : Int)).toNat = n + 1 := by rw [hpos, hp]; omega
      have e2 : st1.pos - 1 = ((s + n : Nat) : Int) := by rw [hpos, hp]; push_cast; omega
      have hlast : InClass cx.query p (s + n) 1 := (inClass_add.1 hin).2
      rw [e1, e2, scan_char hlast] at e
      simp only at e
      have hg2 : Good cx P { st1 with pos := ((s + n : Nat) : Int), accepted := true } :=
        hg1.both true (by omega) (by unfold Ctx.qend; omega)
      obtain ⟨k1, k2⟩ := ih _ f st' hg2 rfl rfl (inClass_mono hin (by omega)) (by omega) e
      refine ⟨fun hf => ?_, fun hf => ?_⟩
      · obtain ⟨d, hd1, hd2, hd3, hd4, hd5⟩ := k1 hf
        refine ⟨d, hd1, by omega, hd3, hd4, fun d' hlt hle => ?_⟩
        by_cases hd' : d' = n + 1
        · subst hd'; exact hnw
        · exact hd5 d' hlt (by omega)
      · obtain ⟨k3, k4, k5, k6⟩ := k2 hf
        refine ⟨k3, k4, k5, fun d' hlt hle => ?_⟩
        by_cases hd' : d' = n + 1
        · subst hd'; exact hnw
        · exact k6 d' hlt (by omega)

/-- A greedy repetition. -/
theorem greedy_from {p : Int → Bool} {lo hi : Nat} {cs : List M} {inj : List K} {W : Nat → Prop} (hj : Judge cx P (greedyBacktrack cs inj) W)
    (hcl : Clean (greedyBacktrack cs inj)) (hlh : lo ≤ hi) {st st' : St} {i : Nat} (hg : Good cx P st) (hi' : st.pos = i)
    (e : greedyMatch (charStep cx p) lo hi cs inj st = some st') :
    (¬ InClass cx.query p i lo ∧ st'.accepted = false) ∨
    ∃ d, lo ≤ d ∧ d ≤ hi ∧ InClass cx.query p i d ∧ (∀ d', d < d' → d' ≤ hi → InClass cx.query p i d' → ¬ W (i + d')) ∧
      ((From cx P (greedyBacktrack cs inj) (i + d) st' ∧ st'.accepted = true) ∨ (d = lo ∧ From cx P (dfs cs []) (i + d) st')) := by
  have hb := hg.pos
  rw [hi'] at hb
  have hil : i ≤ cx.query.length := by have := hb.2; unfold Ctx.qend at this; omega
  simp only [greedyMatch] at e
  by_cases hlo : InClass cx.query p i lo
  · right
    rw [rep_yes lo st i hi' hlo] at e
    simp only at e
    obtain ⟨d, hd1, hd2, hd3, e2⟩ := grow_char (cx := cx) (p := p) (hi - lo) lo
      { st with pos := (i + lo : Nat), accepted := if lo = 0 then st.accepted else true } (i + lo) rfl
    rw [e2] at e
    simp only [Nat.add_sub_cancel_left] at e
    have hin := inClass_add.2 ⟨hlo, hd2⟩
    have hle := inClass_len hin hil
    have hmax : ∀ d', lo + d < d' → d' ≤ hi → ¬ InClass cx.query p i d' := by
      intro d' h1 h2 h3
      apply hd3 (by omega)
      have := inClass_mono h3 (m := lo + (d + 1)) (by omega)
      exact (inClass_add.1 this).2
    by_cases hdz : d = 0
    · subst hdz
      simp only [btLoop] at e
      refine ⟨lo, by omega, hlh, hlo, fun d' h1 h2 h3 => absurd h3 (hmax d' (by omega) h2), Or.inr ⟨rfl, ?_⟩⟩
      exact ⟨_, hg.both true (p := ((i + lo : Nat) : Int)) (by omega) (by unfold Ctx.qend; omega), rfl, rfl, by simpa using e⟩
    · rw [if_neg (by omega)] at e
      have hgd : Good cx P { st with pos := ((i + lo + d : Nat) : Int), accepted := true } := hg.both true (by omega) (by unfold Ctx.qend; omega)
      split at e
      · simp at e
      · rename_i st3 h3
        simp only [Option.some.injEq] at e
        subst e
        obtain ⟨x, hx1, hx2, hx3, hx4, hx5⟩ := (bt_from hj hcl (i + lo) (by omega) d _ true st3 hgd rfl rfl hd2 (by omega) h3).1 rfl
        refine ⟨lo + x, by omega, by omega, inClass_mono hin (by omega), fun d' h1 h2 h3 => ?_, Or.inl ⟨by rw [← Nat.add_assoc]; exact hx3, hx4⟩⟩
        have : d' ≤ lo + d := by
          by_cases h : d' ≤ lo + d
          · exact h
          · exact absurd h3 (hmax d' (by omega) h2)
        have := hx5 (d' - lo) (by omega) (by omega)
        rwa [show i + lo + (d' - lo) = i + d' by omega] at this
      · rename_i st3 h3
        obtain ⟨k1, k2, k3, k4⟩ := (bt_from hj hcl (i + lo) (by omega) d _ false st3 hgd rfl rfl hd2 (by omega) h3).2 rfl
        refine ⟨lo, by omega, hlh, hlo, fun d' h1 h2 h3 => ?_, Or.inr ⟨rfl, { st3 with accepted := true }, k1.flag true, k2, rfl, e⟩⟩
        have : d' ≤ lo + d := by
          by_cases h : d' ≤ lo + d
          · exact h
          · exact absurd h3 (hmax d' (by omega) h2)
        have := k4 (d' - lo) (by omega) (by omega)
        rwa [show i + lo + (d' - lo) = i + d' by omega] at this
  · left
    obtain ⟨d, _, _, e1⟩ := rep_no (cx := cx) (p := p) lo st i hi' hlo
    rw [e1] at e
    simp only [Option.some.injEq] at e
    exact ⟨hlo, by rw [← e]⟩

/-- The loop of a lazy repetition with children. -/
theorem lazyLoop_from {p : Int → Bool} {m : K} (hm : StepSpec cx p m) {cs : List M} {inj : List K} {start : Int} {W : Nat → Prop} (hne : cs.isEmpty = false)
    (hj : Judge cx P (dfs cs []) W) (hcl : Clean (dfs cs [])) (hff : FlagFree (dfs cs [])) : ∀ (n : Nat) (st : St) (f : Bool) (st' : St) (i : Nat),
    Good cx P st → st.pos = i → lazyLoop cx m cs inj start n st = some (f, st') →
    (f = true → (st'.accepted = true ∧ ∃ d, d ≤ n ∧ InClass cx.query p i d ∧ From cx P (dfs cs []) (i + d) st' ∧ ∀ d', d' < d → ¬ W (i + d')) ∨
      (st'.accepted = false ∧ ∀ d, d ≤ n → InClass cx.query p i d → ¬ W (i + d))) ∧
    (f = false → Good cx P st' ∧ ∃ d, d ≤ n ∧ InClass cx.query p i d ∧ (d < n → ¬ InClass cx.query p i (d + 1)) ∧ st'.pos = (i + d : Nat) ∧
        ∀ d', d' < d → ¬ W (i + d')) := by
  intro n
  induction n with
  | zero =>
    intro st f st' i hg hi e
    simp only [lazyLoop, Option.some.injEq, Prod.mk.injEq] at e
    obtain ⟨rfl, rfl⟩ := e
    exact ⟨by simp, fun _ => ⟨hg, 0, by omega, inClass_zero _ _ _, by omega, by simpa using hi, by intro d' h; omega⟩⟩
  | succ n ih =>
    intro st f st' i hg hi e
    have hb := hg.pos
    rw [hi] at hb
    have hil : i ≤ cx.query.length := by have := hb.2; unfold Ctx.qend at this; omega
    simp only [lazyLoop] at e
    split at e
    · rename_i hlt
      rw [if_neg (by simp [hne])] at e
      obtain ⟨st1, h1, hg1, hw⟩ := hj { st with accepted := true } i (hg.flag true) hi rfl
      have h1' : dfs cs [] st = some st1 := by rw [← hff st true]; exact h1
      simp only [h1'] at e
      split at e
      · rename_i hacc
        simp only [Option.some.injEq, Prod.mk.injEq] at e
        obtain ⟨rfl, rfl⟩ := e
        exact ⟨fun _ => Or.inl ⟨hacc, 0, by omega, inClass_zero _ _ _, ⟨_, hg.flag true, by simpa using hi, rfl, h1⟩, by intro d' h; omega⟩, by simp⟩
      · rename_i hrej
        have hrej' : st1.accepted = false := by simpa using hrej
        have hnw : ¬ W i := fun h => hrej (hw.2 h)
        have hpos : st1.pos = i := by rw [hcl _ _ (by rw [hi]; omega) h1' hrej', hi]
        by_cases h1c : InClass cx.query p i 1
        · rw [hm.yes st1 i hpos h1c] at e
          simp only [if_true] at e
          have hle := inClass_len h1c hil
          obtain ⟨k1, k2⟩ := ih _ f st' (i + 1) (hg1.both true (p := ((i + 1 : Nat) : Int)) (by omega) (by unfold Ctx.qend; omega)) rfl e
          have shift : ∀ d, i + (1 + d) = i + 1 + d := by intro d; omega
          refine ⟨fun hf => ?_, fun hf => ?_⟩
          · rcases k1 hf with ⟨ka, d, kd1, kd2, kd3, kd4⟩ | ⟨ka, kr⟩
            · refine Or.inl ⟨ka, 1 + d, by omega, inClass_add.2 ⟨h1c, kd2⟩, by rw [shift]; exact kd3, fun d' hd' => ?_⟩
              cases d' with
              | zero => exact hnw
              | succ d' => rw [Nat.add_comm d' 1, shift]; exact kd4 d' (by omega)
            · refine Or.inr ⟨ka, fun d hdn hin => ?_⟩
              cases d with
              | zero => exact hnw
              | succ d =>
                rw [Nat.add_comm d 1] at hin ⊢
                rw [shift]; exact kr d (by omega) (inClass_add.1 hin).2
          · obtain ⟨q1, d, q4, q5, q6, q7, q8⟩ := k2 hf
            refine ⟨q1, 1 + d, by omega, inClass_add.2 ⟨h1c, q5⟩, fun hlt' hc => ?_, by rw [q7, shift], fun d' hd' => ?_⟩
            · apply q6 (by omega)
              rw [show 1 + d + 1 = 1 + (d + 1) by omega] at hc
              exact (inClass_add.1 hc).2
            · cases d' with
              | zero => exact hnw
              | succ d' => rw [Nat.add_comm d' 1, shift]; exact q8 d' (by omega)
        · obtain ⟨r, e1, hr, _⟩ := hm.no st1 i hpos h1c
          rw [e1] at e
          simp only [hr, Bool.false_eq_true, if_false, Option.some.injEq, Prod.mk.injEq] at e
          obtain ⟨rfl, rfl⟩ := e
          refine ⟨fun _ => Or.inr ⟨rfl, fun d _ hin => ?_⟩, by simp⟩
          cases d with
          | zero => exact hnw
          | succ d => exact absurd (inClass_mono hin (by omega)) h1c
    · rename_i hge
      simp only [Option.some.injEq, Prod.mk.injEq] at e
      obtain ⟨rfl, rfl⟩ := e
      refine ⟨by simp, fun _ => ⟨hg, 0, by omega, inClass_zero _ _ _, fun _ hc => ?_, by simpa using hi, by intro d' h; omega⟩⟩
      have := inClass_len hc hil
      rw [hi] at hge
      unfold Ctx.qend at hge
      omega

/-- A lazy repetition with children. -/
theorem lazy_from {p : Int → Bool} {m : K} (hm : StepSpec cx p m) {lo hi : Nat} {cs : List M} {inj : List K} {W : Nat → Prop} (hne : cs.isEmpty = false)
    (hj : Judge cx P (dfs cs []) W) (hcl : Clean (dfs cs [])) (hff : FlagFree (dfs cs [])) (hlh : lo ≤ hi) {st st' : St} {i : Nat}
    (hg : Good cx P st) (hi' : st.pos = i) (e : lazyMatch cx m lo hi cs inj st = some st') :
    (st'.accepted = false ∧ ∀ d, lo ≤ d → d ≤ hi → InClass cx.query p i d → ¬ W (i + d)) ∨
    ∃ d, lo ≤ d ∧ d ≤ hi ∧ InClass cx.query p i d ∧ (∀ d', lo ≤ d' → d' < d → ¬ W (i + d')) ∧ From cx P (dfs cs []) (i + d) st' ∧ st'.accepted = true := by
  have hb := hg.pos
  rw [hi'] at hb
  have hil : i ≤ cx.query.length := by have := hb.2; unfold Ctx.qend at this; omega
  simp only [lazyMatch] at e
  by_cases hlo : InClass cx.query p i lo
  · rw [repS_yes hm lo st i hi' hlo] at e
    simp only at e
    have hle := inClass_len hlo hil
    have hg1 : Good cx P { st with pos := ((i + lo : Nat) : Int), accepted := if lo = 0 then st.accepted else true } :=
      hg.both _ (by omega) (by unfold Ctx.qend; omega)
    have back : ∀ d, lo ≤ d → InClass cx.query p i d → InClass cx.query p (i + lo) (d - lo) ∧ i + lo + (d - lo) = i + d := by
      intro d h1 h2
      refine ⟨?_, by omega⟩
      rw [show d = lo + (d - lo) by omega] at h2
      exact (inClass_add.1 h2).2
    split at e
    · simp at e
    · rename_i st3 h3
      simp only [Option.some.injEq] at e
      subst e
      rcases (lazyLoop_from hm hne hj hcl hff _ _ _ _ (i + lo) hg1 rfl h3).1 rfl with ⟨ka, d, k1, k2, k3, k4⟩ | ⟨ka, k1⟩
      · refine Or.inr ⟨lo + d, by omega, by omega, inClass_add.2 ⟨hlo, k2⟩, fun d' h1 h2 => ?_, by rw [← Nat.add_assoc]; exact k3, ka⟩
        have := k4 (d' - lo) (by omega)
        rwa [show i + lo + (d' - lo) = i + d' by omega] at this
      · refine Or.inl ⟨ka, fun d h1 h2 h3 => ?_⟩
        obtain ⟨h4, h5⟩ := back d h1 h3
        rw [← h5]; exact k1 _ (by omega) h4
    · rename_i st3 h3
      obtain ⟨k1, d, k2, k3, k4, k5, k6⟩ := (lazyLoop_from hm hne hj hcl hff _ _ _ _ (i + lo) hg1 rfl h3).2 rfl
      have hfr : From cx P (dfs cs []) (i + lo + d) st' := ⟨{ st3 with accepted := true }, k1.flag true, k5, rfl, by rw [hff]; exact e⟩
      cases hacc : st'.accepted with
      | true =>
        refine Or.inr ⟨lo + d, by omega, by omega, inClass_add.2 ⟨hlo, k3⟩, fun d' h1 h2 => ?_, by rw [← Nat.add_assoc]; exact hfr, rfl⟩
        have := k6 (d' - lo) (by omega)
        rwa [show i + lo + (d' - lo) = i + d' by omega] at this
      | false =>
        refine Or.inl ⟨rfl, fun d' h1 h2 h3 => ?_⟩
        obtain ⟨h4, h5⟩ := back d' h1 h3
        rw [← h5]
        by_cases hlt : d' - lo < d
        · exact k6 _ hlt
        · by_cases heq : d' - lo = d
          · intro hw
            rw [heq] at hw
            have := hfr.iff hj |>.2 hw
            rw [hacc] at this; cases this
          · exact absurd (inClass_mono h4 (by omega)) (k4 (by omega))
  · obtain ⟨r, e1, hr⟩ := repS_no hm lo st i hi' hlo
    rw [e1] at e
    simp only [Option.some.injEq] at e
    refine Or.inl ⟨by rw [← e]; exact hr, fun d h1 h2 h3 => absurd (inClass_mono h3 h1) hlo⟩

/-- The loop of a lazy repetition that is alone in a group. -/
theorem lazyLoop_look {p : Int → Bool} {m : K} (hm : StepSpec cx p m) {inj : List K} {start : Int} {W : Nat → Prop}
    (hj : ∀ (st : St) (x : Nat), Good cx P st → st.pos = x → x < cx.query.length → ∃ st', dfsInj inj st = some st' ∧ Good cx P st' ∧ (st'.accepted = true ↔ W x)) :
    ∀ (n : Nat) (st : St) (f : Bool) (st' : St) (i : Nat),
    Good cx P st → st.pos = i → (st.accepted = true ∨ (0 < n ∧ i < cx.query.length)) → lazyLoop cx m [] inj start n st = some (f, st') →
    (f = true → st'.accepted = false ∧ ∀ d, d ≤ n → InClass cx.query p i d → ¬ W (i + d)) ∧
    (f = false → Good cx P st' ∧ st'.accepted = true ∧ ∃ d, d ≤ n ∧ InClass cx.query p i d ∧ st'.pos = (i + d : Nat) ∧ (∀ d', d' < d → ¬ W (i + d')) ∧
      (W (i + d) ∨ (d < n → ¬ InClass cx.query p i (d + 1)))) := by
  intro n
  induction n with
  | zero =>
    intro st f st' i hg hi ha e
    simp only [lazyLoop, Option.some.injEq, Prod.mk.injEq] at e
    obtain ⟨rfl, rfl⟩ := e
    refine ⟨by simp, fun _ => ⟨hg, ?_, 0, by omega, inClass_zero _ _ _, by simpa using hi, by intro d' h; omega, Or.inr (by omega)⟩⟩
    rcases ha with h | h
    · exact h
    · omega
  | succ n ih =>
    intro st f st' i hg hi ha e
    have hb := hg.pos
    rw [hi] at hb
    have hil : i ≤ cx.query.length := by have := hb.2; unfold Ctx.qend at this; omega
    simp only [lazyLoop] at e
    split at e
    · rename_i hlt
      have hlt' : i < cx.query.length := by rw [hi] at hlt; unfold Ctx.qend at hlt; omega
      rw [if_pos (by simp)] at e
      obtain ⟨st1, h1, hg1, hw⟩ := hj st i hg hi hlt'
      simp only [h1] at e
      split at e
      · rename_i hacc
        simp only [Option.some.injEq, Prod.mk.injEq] at e
        obtain ⟨rfl, rfl⟩ := e
        refine ⟨by simp, fun _ => ⟨hg1.move hg.pos.1 hg.pos.2, hacc, 0, by omega, inClass_zero _ _ _, by simpa using hi, by intro d' h; omega, Or.inl (hw.1 hacc)⟩⟩
      · rename_i hrej
        have hnw : ¬ W i := fun h => hrej (hw.2 h)
        by_cases h1c : InClass cx.query p i 1
        · rw [hm.yes { st1 with pos := st.pos } i hi h1c] at e
          simp only [if_true] at e
          have hle := inClass_len h1c hil
          obtain ⟨k1, k2⟩ := ih _ f st' (i + 1) (hg1.both true (p := ((i + 1 : Nat) : Int)) (by omega) (by unfold Ctx.qend; omega)) rfl (Or.inl rfl) e
          have shift : ∀ d, i + (1 + d) = i + 1 + d := by intro d; omega
          refine ⟨fun hf => ?_, fun hf => ?_⟩
          · obtain ⟨ka, kr⟩ := k1 hf
            refine ⟨ka, fun d hdn hin => ?_⟩
            cases d with
            | zero => exact hnw
            | succ d =>
              rw [Nat.add_comm d 1] at hin ⊢
              rw [shift]; exact kr d (by omega) (inClass_add.1 hin).2
          · obtain ⟨q1, q2, d, q4, q5, q7, q8, q9⟩ := k2 hf
            refine ⟨q1, q2, 1 + d, by omega, inClass_add.2 ⟨h1c, q5⟩, by rw [q7, shift], fun d' hd' => ?_, ?_⟩
            · cases d' with
              | zero => exact hnw
              | succ d' => rw [Nat.add_comm d' 1, shift]; exact q8 d' (by omega)
            · rcases q9 with q9 | q9
              · left; rw [shift]; exact q9
              · right
                intro hlt' hc
                apply q9 (by omega)
                rw [show 1 + d + 1 = 1 + (d + 1) by omega] at hc
                exact (inClass_add.1 hc).2
        · obtain ⟨r, e1, hr, _⟩ := hm.no { st1 with pos := st.pos } i hi h1c
          rw [e1] at e
          simp only [hr, Bool.false_eq_true, if_false, Option.some.injEq, Prod.mk.injEq] at e
          obtain ⟨rfl, rfl⟩ := e
          refine ⟨fun _ => ⟨rfl, fun d _ hin => ?_⟩, by simp⟩
          cases d with
          | zero => exact hnw
          | succ d => exact absurd (inClass_mono hin (by omega)) h1c
    · rename_i hge
      simp only [Option.some.injEq, Prod.mk.injEq] at e
      obtain ⟨rfl, rfl⟩ := e
      have hge' : ¬ i < cx.query.length := by rw [hi] at hge; unfold Ctx.qend at hge; omega
      refine ⟨by simp, fun _ => ⟨hg, ?_, 0, by omega, inClass_zero _ _ _, by simpa using hi, by intro d' h; omega, Or.inr (fun _ hc => ?_)⟩⟩
      · rcases ha with h | h
        · exact h
        · exact absurd h.2 hge'
      · have := inClass_len hc hil; omega

/-- A lazy repetition that is alone in a group. -/
theorem lazy_look {p : Int → Bool} {m : K} (hm : StepSpec cx p m) {lo hi : Nat} {inj : List K} {W : Nat → Prop}
    (hj : ∀ (st : St) (x : Nat), Good cx P st → st.pos = x → x < cx.query.length → ∃ st', dfsInj inj st = some st' ∧ Good cx P st' ∧ (st'.accepted = true ↔ W x))
    (hlh : lo ≤ hi) (h0 : 0 < hi) {st st' : St} {i : Nat} (hg : Good cx P st) (hi' : st.pos = i) (ha : st.accepted = true ∨ i < cx.query.length)
    (e : lazyMatch cx m lo hi [] inj st = some st') :
    (st'.accepted = false ∧ ∀ d, lo ≤ d → d ≤ hi → InClass cx.query p i d → ¬ W (i + d)) ∨
    ∃ d, lo ≤ d ∧ d ≤ hi ∧ InClass cx.query p i d ∧ Good cx P st' ∧ st'.accepted = true ∧ st'.pos = (i + d : Nat) ∧
      (∀ d', lo ≤ d' → d' < d → ¬ W (i + d')) ∧ (W (i + d) ∨ ∀ d', d < d' → d' ≤ hi → ¬ InClass cx.query p i d') := by
  have hb := hg.pos
  rw [hi'] at hb
  have hil : i ≤ cx.query.length := by have := hb.2; unfold Ctx.qend at this; omega
  simp only [lazyMatch] at e
  by_cases hlo : InClass cx.query p i lo
  · rw [repS_yes hm lo st i hi' hlo] at e
    simp only at e
    have hle := inClass_len hlo hil
    have hg1 : Good cx P { st with pos := ((i + lo : Nat) : Int), accepted := if lo = 0 then st.accepted else true } :=
      hg.both _ (by omega) (by unfold Ctx.qend; omega)
    have hacc : (if lo = 0 then st.accepted else true) = true ∨ (0 < hi - lo ∧ i + lo < cx.query.length) := by
      split
      · rename_i h; subst h
        rcases ha with h | h
        · exact Or.inl h
        · exact Or.inr ⟨by omega, by omega⟩
      · exact Or.inl rfl
    have back : ∀ d, lo ≤ d → InClass cx.query p i d → InClass cx.query p (i + lo) (d - lo) ∧ i + lo + (d - lo) = i + d := by
      intro d h1 h2
      refine ⟨?_, by omega⟩
      rw [show d = lo + (d - lo) by omega] at h2
      exact (inClass_add.1 h2).2
    split at e
    · simp at e
    · rename_i st3 h3
      simp only [Option.some.injEq] at e
      subst e
      obtain ⟨ka, k1⟩ := (lazyLoop_look hm hj _ _ _ _ (i + lo) hg1 rfl hacc h3).1 rfl
      refine Or.inl ⟨ka, fun d h1 h2 h3 => ?_⟩
      obtain ⟨h4, h5⟩ := back d h1 h3
      rw [← h5]; exact k1 _ (by omega) h4
    · rename_i st3 h3
      simp only [dfs, Option.some.injEq] at e
      subst e
      obtain ⟨k1, k2, d, k3, k4, k5, k6, k7⟩ := (lazyLoop_look hm hj _ _ _ _ (i + lo) hg1 rfl hacc h3).2 rfl
      refine Or.inr ⟨lo + d, by omega, by omega, inClass_add.2 ⟨hlo, k4⟩, k1, k2, by rw [k5, Nat.add_assoc], fun d' h1 h2 => ?_, ?_⟩
      · have := k6 (d' - lo) (by omega)
        rwa [show i + lo + (d' - lo) = i + d' by omega] at this
      · rcases k7 with k7 | k7
        · left; rw [← Nat.add_assoc]; exact k7
        · right
          intro d' h1 h2 h3
          obtain ⟨h4, _⟩ := back d' (by omega) h3
          exact absurd (inClass_mono h4 (by omega)) (k7 (by omega))
  · obtain ⟨r, e1, hr⟩ := repS_no hm lo st i hi' hlo
    rw [e1] at e
    simp only [Option.some.injEq] at e
    refine Or.inl ⟨by rw [← e]; exact hr, fun d h1 h2 h3 => absurd (inClass_mono h3 h1) hlo⟩

end
end ERegex

import Verif.Proofs.CommitGo
import Verif.Proofs.CaptureRun
/-!
# The engine on trees whose quantifiers never give anything back, and the matcher without backtracking
-/
set_option autoImplicit false
namespace ERegex
open ERegex.Spec

/-! ## trees that do not look at what follows -/

mutual
/-- No lazy node; and no greedy one, except for those in front of something, or right inside a group in front of something, that are not `?`. -/
def strict : Node → Bool
  | .exact .. | .range .. | .space | .word | .any | .bos | .eol => true
  | .negated _ => true
  | .simple m cs => strict m && stricts cs
  | .repeated m _ cs => strict m && stricts cs
  | .alt cs => stricts cs
  | .possessive m _ _ cs => strict m && stricts cs
  | .group m _ cs => (strict m || lend m cs) && stricts cs
  | .greedy m lo hi cs => !cs.isEmpty && !(lo == 0 && hi == 1) && (strict m && stricts cs)
  | .lazy .. => false
/-- A greedy loop right inside a group. -/
def lend : Node → List Node → Bool
  | .greedy m lo hi [], cs => strict m && !(lo == 0 && hi == 1) && !cs.isEmpty
  | _, _ => false
def stricts : List Node → Bool
  | [] => true
  | c :: cs => strict c && stricts cs
end

mutual
theorem run_strict (cx : Ctx) : ∀ (t : Node), strict t = true → ∀ inj, run cx t inj = run cx t []
  | .exact .., _, _ | .range .., _, _ | .space, _, _ | .word, _, _ | .any, _, _ | .bos, _, _ | .eol, _, _ | .negated _, _, _ => by simp only [run]
  | .simple m cs, h, inj => by
    simp only [strict, Bool.and_eq_true] at h
    simp only [run]
    funext st
    simp only [simpleMatch, runs_strict cx cs h.2 inj]
  | .repeated m n cs, h, inj => by
    simp only [run]
    funext st
    simp only [repeatedMatch]
  | .alt cs, h, inj => by
    simp only [strict] at h
    simp only [run]
    exact runs_strict cx cs h inj
  | .possessive m lo hi cs, h, inj => by
    simp only [strict, Bool.and_eq_true] at h
    simp only [run]
    funext st
    simp only [possessiveMatch, run_strict cx m h.1 inj]
  | .group m j cs, h, inj => by
    simp only [strict, Bool.and_eq_true] at h
    simp only [run]
    funext st
    simp only [groupMatch, runs_strict cx cs h.2 (List.map (fun c => c []) (runs cx cs) ++ inj),
      runs_strict cx cs h.2 (List.map (fun c => c []) (runs cx cs) ++ [])]
  | .greedy m lo hi cs, h, inj => by
    refine greedy_calm (fun e => ?_) inj
    subst e
    simp [strict] at h
theorem runs_strict (cx : Ctx) : ∀ (cs : List Node), stricts cs = true → ∀ inj, dfs (runs cx cs) inj = dfs (runs cx cs) []
  | [], _, inj => by funext st; simp [runs, dfs]
  | [c], h, inj => by
    simp only [stricts, Bool.and_true] at h
    simp only [runs, dfs]
    exact run_strict cx c h inj
  | c :: d :: cs, h, inj => by
    simp only [stricts, Bool.and_eq_true] at h
    funext st
    simp only [runs, dfs, run_strict cx c h.1 inj]
end

theorem run_group (cx : Ctx) (m : Node) (j : Nat) (cs : List Node) (hm : strict m = true) (hc : stricts cs = true) (st : St) :
    run cx (.group m j cs) [] st = (match run cx m [] st with
      | none => none
      | some st' => if st'.accepted then
          (if j < st'.groups.length then dfs (runs cx cs) [] { st' with groups := st'.groups.set j (some (st.pos, st'.pos)) } else none)
        else some st') := by
  simp only [run, groupMatch, run_strict cx m hm (List.map (fun c => c []) (runs cx cs)), runs_strict cx cs hc (List.map (fun c => c []) (runs cx cs) ++ [])]
  rfl


/-! ## what one run does -/

/-- The captures of the engine contain those of the matcher; with `ex` they are the same. -/
def AgreeG (ex : Bool) (gs : List (Option (Int × Int))) (c : Caps) : Prop :=
  (∀ k a b, c k = some (a, b) → gs[k]? = some (some ((a : Int), (b : Int)))) ∧ (ex = true → ∀ k, k < gs.length → c k = none → gs[k]? = some none)

section
variable {ex : Bool}

/-- The run from `st` (at `i`) to `st'` gives `o`; when it fails the position has moved only over characters of `S`, for every `S` with `sl S`; with `mu`
nothing has been captured then.  `C`: number of groups. -/
structure OutG (ex : Bool) (q : List Int) (i : Nat) (st st' : St) (o : Option Way) (sl : (Int → Bool) → Bool) (mu : Bool) (C : Nat) : Prop where
  yes : ∀ w, o = some w → st'.accepted = true ∧ st'.pos = (w.1 : Int) ∧ AgreeG ex st'.groups w.2
  no : o = none → st'.accepted = false
  slip : o = none → ∀ S, sl S = true → ∃ d : Nat, st'.pos = ((i + d : Nat) : Int) ∧ InClass q S i d
  mute : o = none → mu = true → st'.groups = st.groups
  calm : C = 0 → st'.groups = st.groups

/-- From every state (with the flag set, if `fl`). -/
def Acts (ex : Bool) (cx : Ctx) (fl : Bool) (f : K) (g : Nat → Caps → Option Way) (sl : (Int → Bool) → Bool) (mu : Bool) (C : Nat) : Prop :=
  ∀ (st st' : St) (i : Nat) (c : Caps), st.pos = (i : Int) → i ≤ cx.query.length → (fl = true → st.accepted = true) → AgreeG ex st.groups c → f st = some st' →
    OutG ex cx.query i st st' (g i c) sl mu C

theorem Acts.flag {cx : Ctx} {fl : Bool} {f : K} {g : Nat → Caps → Option Way} {sl : (Int → Bool) → Bool} {mu : Bool} {C : Nat} (h : Acts ex cx false f g sl mu C) : Acts ex cx fl f g sl mu C :=
  fun st st' i c h1 h2 _ h4 e => h st st' i c h1 h2 (by simp) h4 e

theorem Acts.weaken {cx : Ctx} {fl : Bool} {f f' : K} {g g' : Nat → Caps → Option Way} {sl sl' : (Int → Bool) → Bool} {mu mu' : Bool} {C C' : Nat} (h : Acts ex cx fl f g sl mu C)
    (hf : ∀ st, f' st = f st) (hg : ∀ i c, i ≤ cx.query.length → g' i c = g i c) (hs : ∀ S, sl' S = true → sl S = true) (hm : mu' = true → mu = true) (hC : C' = 0 → C = 0) : Acts ex cx fl f' g' sl' mu' C' := by
  intro st st' i c h1 h2 h3 h4 e
  rw [hf] at e
  rw [hg i c h2]
  have := h st st' i c h1 h2 h3 h4 e
  exact ⟨this.yes, this.no, fun hn S hS => this.slip hn S (hs S hS), fun hn hmu => this.mute hn (hm hmu), fun hc => this.calm (hC hc)⟩

/-- One after the other. -/
def seqK (f h : K) : K := fun st => match f st with
  | none => none
  | some st1 => if st1.accepted then h st1 else some st1

/-- One after the other; if the second fails the position is restored. -/
def seqR (f h : K) : K := fun st => match f st with
  | none => none
  | some st1 => if st1.accepted then (match h st1 with
      | none => none
      | some st2 => if st2.accepted then some st2 else some { st2 with pos := st.pos }) else some st1

/-- What is known about the first part and the rest. -/
structure Link (cx : Ctx) (g g' : Nat → Caps → Option Way) (wi : (Int → Bool) → Bool) (tt : Bool) : Prop where
  fwd : ∀ w v : Way, g w.1 w.2 = some v → Fwd cx.query w v
  over : ∀ S, wi S = true → ∀ w v : Way, g w.1 w.2 = some v → Over cx.query S w v
  total : tt = true → ∀ w : Way, ∃ v, g' w.1 w.2 = some v

/-- One run and then another one. -/
theorem out_seq {cx : Ctx} {h : K} {g g' : Nat → Caps → Option Way} {sl sl' wi : (Int → Bool) → Bool} {mu mu' tt : Bool} {C C' : Nat} {st st1 st' : St} {i : Nat} {c : Caps}
    (hi : i ≤ cx.query.length) (o1 : OutG ex cx.query i st st1 (g i c) sl mu C) (hh : Acts ex cx true h g' sl' mu' C') (hl : Link cx g g' wi tt)
    (e : (if st1.accepted then h st1 else some st1) = some st') :
    OutG ex cx.query i st st' ((g i c).bind (fun w => g' w.1 w.2)) (fun S => sl S && (tt || (sl' S && wi S))) ((C == 0 && mu') || (mu && tt)) (C + C') := by
  cases hg : g i c with
  | none =>
    rw [hg] at o1
    have hacc := o1.no rfl
    simp only [hacc, Bool.false_eq_true, if_false, Option.some.injEq] at e
    subst e
    rw [Option.bind_none]
    refine ⟨fun w hw => (by cases hw), fun _ => hacc, fun _ S hS => ?_, fun _ hm => ?_, fun hc => o1.calm (by omega)⟩
    · simp only [Bool.and_eq_true] at hS
      exact o1.slip rfl S hS.1
    · simp only [Bool.or_eq_true, Bool.and_eq_true, beq_iff_eq] at hm
      rcases hm with hm | hm
      · exact o1.calm hm.1
      · exact o1.mute rfl hm.1
  | some w =>
    rw [hg] at o1
    obtain ⟨a1, a2, a3⟩ := o1.yes w rfl
    simp only [a1, if_true] at e
    have hw : w.1 ≤ cx.query.length := (hl.fwd (i, c) w hg hi).2
    have o2 := hh st1 st' w.1 w.2 a2 hw (fun _ => a1) a3 e
    rw [Option.bind_some]
    refine ⟨o2.yes, o2.no, fun hn S hS => ?_, fun hn hm => ?_, fun hc => by rw [o2.calm (by omega), o1.calm (by omega)]⟩
    · simp only [Bool.and_eq_true, Bool.or_eq_true] at hS
      rcases hS.2 with ht | ⟨hS1, hS2⟩
      · obtain ⟨v, hv⟩ := hl.total ht w; rw [hv] at hn; cases hn
      · obtain ⟨d, hd1, hd2⟩ := o2.slip hn S hS1
        obtain ⟨d', hd3, hd4⟩ := hl.over S hS2 (i, c) w hg
        simp only at hd3 hd4
        exact ⟨d' + d, by rw [hd1, hd3]; congr 1; omega, inClass_add.2 ⟨hd4, by rwa [hd3] at hd2⟩⟩
    · simp only [Bool.or_eq_true, Bool.and_eq_true, beq_iff_eq] at hm
      rcases hm with hm | hm
      · rw [o2.mute hn hm.2, o1.calm hm.1]
      · obtain ⟨v, hv⟩ := hl.total hm.2 w; rw [hv] at hn; cases hn

theorem acts_seq {cx : Ctx} {fl : Bool} {f h : K} {g g' : Nat → Caps → Option Way} {sl sl' wi : (Int → Bool) → Bool} {mu mu' tt : Bool} {C C' : Nat}
    (hf : Acts ex cx fl f g sl mu C) (hh : Acts ex cx true h g' sl' mu' C') (hl : Link cx g g' wi tt) :
    Acts ex cx fl (seqK f h) (fun i c => (g i c).bind (fun w => g' w.1 w.2)) (fun S => sl S && (tt || (sl' S && wi S))) ((C == 0 && mu') || (mu && tt)) (C + C') := by
  intro st st' i c hp hi hfl ha e
  simp only [seqK] at e
  cases e1 : f st with
  | none => rw [e1] at e; cases e
  | some st1 =>
    rw [e1] at e
    exact out_seq hi (hf st st1 i c hp hi hfl ha e1) hh hl e

theorem acts_seqR {cx : Ctx} {fl : Bool} {f h : K} {g g' : Nat → Caps → Option Way} {sl sl' wi : (Int → Bool) → Bool} {mu mu' tt : Bool} {C C' : Nat}
    (hf : Acts ex cx fl f g sl mu C) (hh : Acts ex cx true h g' sl' mu' C') (hl : Link cx g g' wi tt) :
    Acts ex cx fl (seqR f h) (fun i c => (g i c).bind (fun w => g' w.1 w.2)) sl ((C == 0 && mu') || (mu && tt)) (C + C') := by
  intro st st' i c hp hi hfl ha e
  have h1 := acts_seq hf hh hl st
  simp only [seqR] at e
  simp only [seqK] at h1
  cases e1 : f st with
  | none => rw [e1] at e; cases e
  | some st1 =>
    rw [e1] at e h1
    simp only at e h1
    cases hacc : st1.accepted with
    | false =>
      simp only [hacc, Bool.false_eq_true, if_false, Option.some.injEq] at e h1
      have o := h1 st' i c hp hi hfl ha (by rw [e])
      have o1 := hf st st1 i c hp hi hfl ha e1
      have hg : g i c = none := by
        cases hg : g i c with
        | none => rfl
        | some w => have := (o1.yes w hg).1; rw [hacc] at this; cases this
      exact ⟨o.yes, o.no, fun _ S hS => by rw [← e]; exact o1.slip hg S hS, o.mute, o.calm⟩
    | true =>
      simp only [hacc, if_true] at e h1
      cases e2 : h st1 with
      | none => rw [e2] at e; cases e
      | some st2 =>
        have o := h1 st2 i c hp hi hfl ha e2
        rw [e2] at e
        simp only at e
        cases hacc2 : st2.accepted with
        | true =>
          simp only [hacc2, if_true, Option.some.injEq] at e
          subst e
          refine ⟨o.yes, o.no, fun hn => ?_, o.mute, o.calm⟩
          have := o.no hn; rw [hacc2] at this; cases this
        | false =>
          simp only [hacc2, Bool.false_eq_true, if_false, Option.some.injEq] at e
          subst e
          refine ⟨fun w hw => ?_, fun _ => (by first | rfl | exact hacc2), fun _ S _ => ⟨0, hp, inClass_zero _ _ _⟩, o.mute, o.calm⟩
          have := (o.yes w hw).1; rw [hacc2] at this; cases this

/-! ## loops -/

theorem rep_out {cx : Ctx} {f : K} {g : Nat → Caps → Option Way} {sl wi : (Int → Bool) → Bool} {mu : Bool} {C : Nat} (hf : Acts ex cx false f g sl mu C)
    (hfwd : ∀ w v : Way, g w.1 w.2 = some v → Fwd cx.query w v) (hover : ∀ S, wi S = true → ∀ w v : Way, g w.1 w.2 = some v → Over cx.query S w v) :
    ∀ (n : Nat) (st : St) (b : Bool) (st' : St) (i : Nat) (c : Caps), st.pos = (i : Int) → i ≤ cx.query.length → AgreeG ex st.groups c → repLoop f n st = some (b, st') →
      (∀ v, mustG g n (i, c) = some v → b = true ∧ st'.pos = (v.1 : Int) ∧ AgreeG ex st'.groups v.2 ∧ (st.accepted = true ∨ 0 < n → st'.accepted = true)) ∧
      (mustG g n (i, c) = none → b = false) ∧
      (b = false → OutG ex cx.query i st st' none (fun S => sl S && (decide (n ≤ 1) || wi S)) (mu && decide (n ≤ 1)) C) ∧ (C = 0 → st'.groups = st.groups)
  | 0, st, b, st', i, c, hp, hi, ha, e => by
    simp only [repLoop, Option.some.injEq, Prod.mk.injEq] at e
    obtain ⟨rfl, rfl⟩ := e
    refine ⟨fun v hv => ?_, fun h => (by simp [mustG] at h), fun h => (by cases h), fun _ => rfl⟩
    simp only [mustG, Option.some.injEq] at hv; subst hv
    exact ⟨rfl, hp, ha, fun h => by simpa using h⟩
  | n + 1, st, b, st', i, c, hp, hi, ha, e => by
    simp only [repLoop] at e
    cases e1 : f st with
    | none => rw [e1] at e; cases e
    | some st1 =>
      rw [e1] at e
      simp only at e
      have o1 := hf st st1 i c hp hi (by simp) ha e1
      cases hg : g i c with
      | none =>
        have hacc := o1.no hg
        simp only [hacc, Bool.false_eq_true, if_false, Option.some.injEq, Prod.mk.injEq] at e
        obtain ⟨rfl, rfl⟩ := e
        refine ⟨fun v hv => by simp [mustG, hg] at hv, fun _ => rfl, fun _ => ?_, o1.calm⟩
        refine ⟨fun w hw => (by cases hw), fun _ => hacc, fun _ S hS => ?_, fun _ hm => ?_, o1.calm⟩
        · simp only [Bool.and_eq_true] at hS; exact o1.slip hg S hS.1
        · simp only [Bool.and_eq_true] at hm; exact o1.mute hg hm.1
      | some w =>
        obtain ⟨a1, a2, a3⟩ := o1.yes w hg
        simp only [a1, if_true] at e
        have hw : w.1 ≤ cx.query.length := (hfwd (i, c) w hg hi).2
        obtain ⟨r1, r2, r3, r4⟩ := rep_out hf hfwd hover n st1 b st' w.1 w.2 a2 hw a3 e
        refine ⟨fun v hv => ?_, fun h => r2 (by simpa [mustG, hg] using h), fun hb => ?_, fun hc => by rw [r4 hc, o1.calm hc]⟩
        · obtain ⟨x1, x2, x3, x4⟩ := r1 v (by simpa [mustG, hg] using hv)
          exact ⟨x1, x2, x3, fun _ => x4 (.inl a1)⟩
        · have o2 := r3 hb
          have hn : n ≠ 0 := by
            rintro rfl
            simp only [repLoop, Option.some.injEq, Prod.mk.injEq] at e
            rw [← e.1] at hb; cases hb
          have hd : decide (n + 1 ≤ 1) = false := by simp; omega
          rw [hd]
          refine ⟨fun w hw => (by cases hw), o2.no, fun _ S hS => ?_, fun _ hm => by simp at hm, fun hc => by rw [r4 hc, o1.calm hc]⟩
          simp only [Bool.false_or, Bool.and_eq_true] at hS
          obtain ⟨d, hd1, hd2⟩ := o2.slip rfl S (by simp [hS.1, hS.2])
          obtain ⟨d', hd3, hd4⟩ := hover S hS.2 (i, c) w hg
          simp only at hd3 hd4
          exact ⟨d' + d, by rw [hd1, hd3]; congr 1; omega, inClass_add.2 ⟨hd4, by rwa [hd3] at hd2⟩⟩

theorem poss_split (f : K) (lo r : Nat) : ∀ (n j : Nat) (st : St), j + n = lo →
    possLoop f lo (n + r) j st.pos st = (match repLoop f n st with
      | none => none
      | some (false, st1) => some (false, st1)
      | some (true, st1) => possLoop f lo r lo st1.pos st1)
  | 0, j, st, h => by
    have : j = lo := by omega
    subst this
    simp only [repLoop, Nat.zero_add]
  | n + 1, j, st, h => by
    have : n + 1 + r = (n + r) + 1 := by omega
    rw [this]
    simp only [possLoop, repLoop]
    cases f st with
    | none => rfl
    | some st1 =>
      simp only
      cases hacc : st1.accepted with
      | true =>
        simp only [if_true]
        exact poss_split f lo r n (j + 1) st1 (by omega)
      | false =>
        simp only [Bool.false_eq_true, if_false]
        rw [if_pos (by omega)]

theorem poss_grow {cx : Ctx} {f : K} {g : Nat → Caps → Option Way} {sl : (Int → Bool) → Bool} {mu : Bool} {C : Nat} (hf : Acts ex cx false f g sl mu C)
    (hfwd : ∀ w v : Way, g w.1 w.2 = some v → Fwd cx.query w v) (lo : Nat) : ∀ (r j : Nat) (st : St) (b : Bool) (st' : St) (i : Nat) (c : Caps), (r = 0 ∨ mu = true) → lo ≤ j →
      st.pos = (i : Int) → i ≤ cx.query.length →
      AgreeG ex st.groups c → possLoop f lo r j st.pos st = some (b, st') →
      b = true ∧ st'.pos = ((growG g r (i, c)).1 : Int) ∧ AgreeG ex st'.groups (growG g r (i, c)).2 ∧ (st.accepted = true ∨ 0 < r → st'.accepted = true) ∧ (C = 0 → st'.groups = st.groups)
  | 0, j, st, b, st', i, c, hmu, hj, hp, hi, ha, e => by
    simp only [possLoop, Option.some.injEq, Prod.mk.injEq] at e
    obtain ⟨rfl, rfl⟩ := e
    exact ⟨rfl, hp, ha, fun h => by simpa using h, fun _ => rfl⟩
  | r + 1, j, st, b, st', i, c, hmu, hj, hp, hi, ha, e => by
    have hmu : mu = true := by rcases hmu with h | h
                               · cases h
                               · exact h
    simp only [possLoop] at e
    cases e1 : f st with
    | none => rw [e1] at e; cases e
    | some st1 =>
      rw [e1] at e
      simp only at e
      have o1 := hf st st1 i c hp hi (by simp) ha e1
      simp only [growG]
      cases hg : g i c with
      | none =>
        have hacc := o1.no hg
        have hj' : ¬ j < lo := by omega
        simp only [hacc, Bool.false_eq_true, if_false, hj', Option.some.injEq, Prod.mk.injEq] at e
        obtain ⟨rfl, rfl⟩ := e
        have := o1.mute hg hmu
        exact ⟨rfl, hp, by simpa only [this] using ha, fun _ => rfl, fun _ => this⟩
      | some w =>
        obtain ⟨a1, a2, a3⟩ := o1.yes w hg
        simp only [a1, if_true] at e
        have hw : w.1 ≤ cx.query.length := (hfwd (i, c) w hg hi).2
        obtain ⟨x1, x2, x3, x4, x5⟩ := poss_grow hf hfwd lo r (j + 1) st1 b st' w.1 w.2 (.inr hmu) (by omega) a2 hw a3 e
        exact ⟨x1, x2, x3, fun _ => x4 (.inl a1), fun hc => by rw [x5 hc, o1.calm hc]⟩

/-- A loop, and what follows. -/
def loopK (f h : K) (lo hi : Nat) : K := fun st => match possLoop f lo hi 0 st.pos st with
  | none => none
  | some (false, st') => some st'
  | some (true, st') => h st'

theorem rep_loop (f h : K) (n : Nat) (st : St) : loopK f h n n st = (match repLoop f n st with
    | none => none
    | some (false, st') => some st'
    | some (true, st') => h st') := by
  have := poss_split f n 0 n 0 st (by omega)
  simp only [Nat.add_zero] at this
  simp only [loopK, this]
  cases repLoop f n st with
  | none => rfl
  | some x =>
    obtain ⟨b, st1⟩ := x
    cases b <;> simp [possLoop]

theorem grow_fuel {q : List Int} {g : Nat → Caps → Option Way} (hg : ∀ w v : Way, g w.1 w.2 = some v → w.1 ≤ q.length → w.1 < v.1 ∧ v.1 ≤ q.length) : ∀ (n m : Nat) (w : Way),
    w.1 ≤ q.length → q.length - w.1 ≤ n → q.length - w.1 ≤ m → growG g n w = growG g m w := by
  intro n
  induction n with
  | zero =>
    intro m w hw h1 h2
    have : g w.1 w.2 = none := by
      cases e : g w.1 w.2 with
      | none => rfl
      | some v => have := hg w v e hw; omega
    cases m with
    | zero => rfl
    | succ m => simp [growG, this]
  | succ n ih =>
    intro m w hw h1 h2
    cases m with
    | zero =>
      have : g w.1 w.2 = none := by
        cases e : g w.1 w.2 with
        | none => rfl
        | some v => have := hg w v e hw; omega
      simp [growG, this]
    | succ m =>
      simp only [growG]
      cases e : g w.1 w.2 with
      | none => rfl
      | some v =>
        have := hg w v e hw
        exact ih m v this.2 (by omega) (by omega)

theorem acts_loop {cx : Ctx} (hlen : cx.query.length < umax) {f h : K} {g g' : Nat → Caps → Option Way} {sl sl' wi : (Int → Bool) → Bool} {mu mu' tt : Bool} {C C' : Nat}
    (hf : Acts ex cx false f g sl mu C) (hh : Acts ex cx true h g' sl' mu' C') (hl : Link cx g g' wi tt)
    (hfeed : ∀ w v : Way, g w.1 w.2 = some v → w.1 ≤ cx.query.length → w.1 < v.1) (k : Quant) {hi : Nat} (hk : k.hi = some hi ∨ k.hi = none ∧ hi = umax)
    (hlo : k.lo ≤ hi) (hpos : 0 < hi) (hmu : k.lo = hi ∨ mu = true) :
    Acts ex cx false (loopK f h k.lo hi) (fun i c => (k.go cx.query.length g (i, c)).bind (fun w => g' w.1 w.2))
      (fun S => (k.lo == 0 || (sl S && (k.lo == 1 || wi S))) && (tt || (sl' S && wi S))) ((C == 0 && mu') || (mu && decide (k.lo ≤ 1) && tt)) (C + C') := by
  intro st st' i c hp hi' hfl ha e
  have hfeed' : ∀ w v : Way, g w.1 w.2 = some v → w.1 ≤ cx.query.length → w.1 < v.1 ∧ v.1 ≤ cx.query.length := fun w v e hw => ⟨hfeed w v e hw, (hl.fwd w v e hw).2⟩
  have hmu' : hi - k.lo = 0 ∨ mu = true := hmu.imp (fun h => by omega) id
  have hsplit := poss_split f k.lo (hi - k.lo) k.lo 0 st (by omega)
  rw [show k.lo + (hi - k.lo) = hi by omega] at hsplit
  simp only [loopK, hsplit] at e
  cases e1 : repLoop f k.lo st with
  | none => rw [e1] at e; cases e
  | some x =>
    obtain ⟨b, st1⟩ := x
    rw [e1] at e
    obtain ⟨r1, r2, r3, r4⟩ := rep_out hf hl.fwd hl.over k.lo st b st1 i c hp hi' ha e1
    cases b with
    | false =>
      simp only [Option.some.injEq] at e
      subst e
      have hm : mustG g k.lo (i, c) = none := by
        cases hm : mustG g k.lo (i, c) with
        | none => rfl
        | some v => have := (r1 v hm).1; cases this
      have o := r3 rfl
      have hgo : (k.go cx.query.length g (i, c)).bind (fun w => g' w.1 w.2) = none := by simp [Quant.go, hm]
      show OutG ex cx.query i st _ ((k.go cx.query.length g (i, c)).bind (fun w => g' w.1 w.2)) _ _ _
      rw [hgo]
      refine ⟨fun w hw => (by cases hw), o.no, fun _ S hS => o.slip rfl S ?_, fun _ hmm => ?_, fun hc => r4 (by omega)⟩
      · simp only [Bool.and_eq_true, Bool.or_eq_true, beq_iff_eq] at hS
        rcases hS.1 with h0 | h0
        · rw [h0] at hm; simp [mustG] at hm
        · simp only [h0.1, Bool.true_and, Bool.or_eq_true, decide_eq_true_eq]
          rcases h0.2 with h1 | h1
          · left; omega
          · right; exact h1
      · simp only [Bool.or_eq_true, Bool.and_eq_true, beq_iff_eq] at hmm
        rcases hmm with hmm | hmm
        · exact r4 hmm.1
        · exact o.mute rfl (by simp only [Bool.and_eq_true]; exact hmm.1)
    | true =>
      simp only at e
      cases hm : mustG g k.lo (i, c) with
      | none => have := r2 hm; cases this
      | some v =>
        obtain ⟨_, p1, p2, p3⟩ := r1 v hm
        have hv := must_rel (fwd_refl cx.query) (fwd_trans cx.query) hl.fwd _ _ _ hm hi'
        have hvl := must_feed hfeed' _ _ _ hm hi'
        simp only at hv hvl
        cases e2 : possLoop f k.lo (hi - k.lo) k.lo st1.pos st1 with
        | none => rw [e2] at e; cases e
        | some y =>
          obtain ⟨b, st2⟩ := y
          rw [e2] at e
          obtain ⟨rfl, s1, s2, s3, s4⟩ := poss_grow hf hl.fwd k.lo (hi - k.lo) k.lo st1 b st2 v.1 v.2 hmu' (Nat.le_refl _) p1 hv.2 p2 e2
          simp only at e
          have hgrow : growG g (hi - k.lo) v = growG g (k.extra cx.query.length) v := by
            rcases hk with hk | ⟨hk, rfl⟩
            · simp only [Quant.extra, hk]
            · simp only [Quant.extra, hk]
              exact grow_fuel hfeed' _ _ v hv.2 (by omega) (by omega)
          have hgrow' : growG g (hi - k.lo) (v.1, v.2) = growG g (k.extra cx.query.length) v := hgrow
          rw [hgrow'] at s1 s2
          have hgo : k.go cx.query.length g (i, c) = some (growG g (k.extra cx.query.length) v) := by simp [Quant.go, hm]
          show OutG ex cx.query i st _ ((k.go cx.query.length g (i, c)).bind (fun w => g' w.1 w.2)) _ _ _
          rw [hgo, Option.bind_some]
          have hw := (grow_rel (fwd_refl cx.query) (fwd_trans cx.query) hl.fwd (k.extra cx.query.length) v hv.2).2
          have hacc : st2.accepted = true := by
            refine s3 ?_
            by_cases h0 : 0 < k.lo
            · exact .inl (p3 (.inr h0))
            · right; omega
          have o2 := hh st2 st' _ _ s1 hw (fun _ => hacc) s2 e
          refine ⟨o2.yes, o2.no, fun hn S hS => ?_, fun hn hmm => ?_, fun hc => by rw [o2.calm (by omega), s4 (by omega), r4 (by omega)]⟩
          · simp only [Bool.and_eq_true, Bool.or_eq_true] at hS
            rcases hS.2 with ht | ⟨hS1, hS2⟩
            · obtain ⟨u, hu⟩ := hl.total ht (growG g (k.extra cx.query.length) v); rw [hu] at hn; cases hn
            · obtain ⟨d, hd1, hd2⟩ := o2.slip hn S hS1
              obtain ⟨d', hd3, hd4⟩ := quant_rel (over_refl cx.query S) (over_trans cx.query S) (hl.over S hS2) hgo
              simp only at hd3 hd4
              exact ⟨d' + d, by rw [hd1, hd3]; congr 1; omega, inClass_add.2 ⟨hd4, by rwa [hd3] at hd2⟩⟩
          · simp only [Bool.or_eq_true, Bool.and_eq_true, beq_iff_eq] at hmm
            rcases hmm with hmm | hmm
            · rw [o2.mute hn hmm.2, s4 hmm.1, r4 hmm.1]
            · obtain ⟨u, hu⟩ := hl.total hmm.2 (growG g (k.extra cx.query.length) v); rw [hu] at hn; cases hn

end

end ERegex

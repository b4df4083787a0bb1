import Verif.Proofs.CommitRun
/-!
# Greedy loops that give back nothing: what is tried when the rest fails is bound to fail, too
-/
set_option autoImplicit false
namespace ERegex
open ERegex.Spec

/-- `greedy::match` (Model/Match.lean), with any function in place of `greedy::backtrack`. -/
def greedyK (bt f h : K) (lo hi : Nat) : K := fun st =>
  match repLoop f lo st with
  | none => none
  | some (false, st1) => some st1
  | some (true, st1) =>
    match growLoop f (hi - lo) lo st1 with
    | none => none
    | some (k, st2) =>
      match btLoop bt f st1.pos (k - lo) st2 with
      | none => none
      | some (true, st3) => some st3
      | some (false, st3) => h { st3 with accepted := true }

theorem greedy_is (f : K) (lo hi : Nat) (cs : List M) (inj : List K) (st : St) :
    greedyMatch f lo hi cs inj st = greedyK (greedyBacktrack cs inj) f (dfs cs []) lo hi st := rfl

/-- The growing phase does what a possessive loop does. -/
theorem grow_poss {f : K} {len : Nat} (hf : ∀ (st st' : St) (p : Nat), st.pos = (p : Int) → p ≤ len → f st = some st' → st'.accepted = false → st'.pos = (p : Int)) (lo : Nat)
    (hpos : ∀ (a b : St) (p : Nat), a.pos = (p : Int) → p ≤ len → f a = some b → b.accepted = true → ∃ p' : Nat, b.pos = (p' : Int) ∧ p ≤ p' ∧ p' ≤ len) :
    ∀ (n j : Nat) (st : St) (k : Nat) (st2 : St) (p : Nat), st.pos = (p : Int) → p ≤ len → lo ≤ j →
    growLoop f n j st = some (k, st2) →
    possLoop f lo n j st.pos st = some (true, st2) ∧ j ≤ k ∧ (j < k → ∃ st', f st = some st' ∧ st'.accepted = true) ∧ (st.accepted = true ∨ 0 < n → st2.accepted = true)
  | 0, j, st, k, st2, p, _, _, _, e => by
    simp only [growLoop, Option.some.injEq, Prod.mk.injEq] at e
    obtain ⟨rfl, rfl⟩ := e
    exact ⟨rfl, Nat.le_refl _, fun h => absurd h (Nat.lt_irrefl _), fun h => h.elim id (fun h => absurd h (Nat.lt_irrefl _))⟩
  | n + 1, j, st, k, st2, p, hp, hl, hj, e => by
    simp only [growLoop] at e
    simp only [possLoop]
    cases e1 : f st with
    | none => rw [e1] at e; cases e
    | some st1 =>
      rw [e1] at e
      simp only at e
      cases hacc : st1.accepted with
      | true =>
        simp only [hacc, if_true] at e
        obtain ⟨p', hp', hle, hl'⟩ := hpos st st1 p hp hl e1 hacc
        obtain ⟨i1, i2, _, i4⟩ := grow_poss hf lo hpos n (j + 1) st1 k st2 p' hp' hl' (by omega) e
        simp only [hacc, if_true]
        exact ⟨i1, by omega, fun _ => ⟨st1, rfl, hacc⟩, fun _ => i4 (.inl hacc)⟩
      | false =>
        simp only [hacc, Bool.false_eq_true, if_false, Option.some.injEq, Prod.mk.injEq] at e
        obtain ⟨rfl, rfl⟩ := e
        have hj' : ¬ j < lo := by omega
        simp only [hacc, Bool.false_eq_true, if_false, hj', hf st st1 p hp hl e1 hacc, hp]
        exact ⟨trivial, Nat.le_refl _, fun h => absurd h (Nat.lt_irrefl _), fun _ => trivial⟩

section
variable {bt f : K} {start len : Nat} {Bad R : Nat → Prop} {gr : Prop}

theorem scan_off (hf : ∀ (st st' : St) (p : Nat), st.pos = (p : Int) → p ≤ len → f st = some st' → st'.accepted = false → st'.pos = (p : Int)) (hacc : ∀ (st st' : St) (p : Nat), st.pos = (p : Int) → p ≤ len → f st = some st' → st'.accepted = true → Bad p)
    (hgf : gr → ∀ (st st' : St) (p : Nat), st.pos = (p : Int) → p ≤ len → f st = some st' → st'.groups = st.groups) (hs : Bad start) :
    ∀ (n : Nat) (st st' : St) (p : Nat), p = start + n → p ≤ len → (n = 0 → st.pos = (p : Int)) → scanBack f n ((p : Int) - 1) st = some st' →
      (n = 0 → st'.pos = st.pos) ∧ (∃ p' : Nat, st'.pos = (p' : Int) ∧ start ≤ p' ∧ p' ≤ p ∧ Bad p') ∧ (gr → st'.groups = st.groups)
  | 0, st, st', p, hp, hl, h0, e => by
    simp only [scanBack, Option.some.injEq] at e
    subst e
    have : p = start := by omega
    subst this
    exact ⟨fun _ => rfl, ⟨p, h0 rfl, Nat.le_refl _, Nat.le_refl _, hs⟩, fun _ => rfl⟩
  | n + 1, st, st', p, hp, hl, _, e => by
    simp only [scanBack] at e
    have hp1 : ((p : Int) - 1) = ((start + n : Nat) : Int) := by omega
    rw [hp1] at e
    cases e1 : f { st with pos := ((start + n : Nat) : Int) } with
    | none => rw [e1] at e; cases e
    | some st1 =>
      rw [e1] at e
      simp only at e
      cases ha : st1.accepted with
      | true =>
        simp only [ha, if_true, Option.some.injEq] at e
        subst e
        refine ⟨fun h => (by cases h), ⟨start + n, rfl, by omega, by omega, hacc _ st1 (start + n) rfl (by omega) e1 ha⟩, fun hg => ?_⟩
        have := hgf hg { st with pos := ((start + n : Nat) : Int) } st1 (start + n) rfl (by omega) e1
        exact this
      | false =>
        simp only [ha, Bool.false_eq_true, if_false] at e
        have hcl : st1.pos = ((start + n : Nat) : Int) := hf _ st1 (start + n) rfl (by omega) e1 ha
        obtain ⟨_, ⟨p', i1, i2, i3, i4⟩, i5⟩ := scan_off hf hacc hgf hs n st1 st' (start + n) rfl (by omega) (fun _ => hcl) e
        refine ⟨fun h => (by cases h), ⟨p', i1, i2, by omega, i4⟩, fun hg => ?_⟩
        rw [i5 hg]
        have := hgf hg { st with pos := ((start + n : Nat) : Int) } st1 (start + n) rfl (by omega) e1
        exact this

/-- Where the rest fails, and the body matches only where it fails, backtracking finds nothing. -/
theorem back_off (hf : ∀ (st st' : St) (p : Nat), st.pos = (p : Int) → p ≤ len → f st = some st' → st'.accepted = false → st'.pos = (p : Int))
    (hb : ∀ (st st' : St) (p : Nat), st.pos = (p : Int) → p ≤ len → R p → bt st = some st' → st'.accepted = false → ∃ p' : Nat, st'.pos = (p' : Int) ∧ p ≤ p' ∧ p' ≤ len ∧ R p')
    (hR : ∀ p p' : Nat, R p → start ≤ p' → p' ≤ p → R p')
    (hbad : ∀ (st st' : St) (p : Nat), st.pos = (p : Int) → p ≤ len → Bad p → bt st = some st' → st'.accepted = false)
    (hacc : ∀ (st st' : St) (p : Nat), st.pos = (p : Int) → p ≤ len → f st = some st' → st'.accepted = true → Bad p)
    (hgf : gr → ∀ (st st' : St) (p : Nat), st.pos = (p : Int) → p ≤ len → f st = some st' → st'.groups = st.groups)
    (hgb : gr → ∀ (st st' : St) (p : Nat), st.pos = (p : Int) → p ≤ len → Bad p → bt st = some st' → st'.groups = st.groups) (hs : Bad start) :
    ∀ (n : Nat) (st : St) (b : Bool) (st' : St) (p : Nat), st.pos = (p : Int) → start ≤ p → p ≤ len → R p → Bad p → btLoop bt f (start : Int) n st = some (b, st') →
      b = false ∧ (∃ p' : Nat, st'.pos = (p' : Int) ∧ start ≤ p' ∧ p' ≤ len ∧ R p' ∧ Bad p') ∧ (gr → st'.groups = st.groups)
  | 0, st, b, st', p, hp, h1, h2, hr, h3, e => by
    simp only [btLoop, Option.some.injEq, Prod.mk.injEq] at e
    obtain ⟨rfl, rfl⟩ := e
    exact ⟨rfl, ⟨p, hp, h1, h2, hr, h3⟩, fun _ => rfl⟩
  | n + 1, st, b, st', p, hp, h1, h2, hr, h3, e => by
    simp only [btLoop] at e
    cases e1 : bt st with
    | none => rw [e1] at e; cases e
    | some st1 =>
      rw [e1] at e
      simp only at e
      have ha := hbad st st1 p hp h2 h3 e1
      obtain ⟨p1, hp1, hle1, hlen1, hr1⟩ := hb st st1 p hp h2 hr e1 ha
      simp only [ha, Bool.false_eq_true, if_false, hp1] at e
      have hn : ((p1 : Int) - (start : Int)).toNat = p1 - start := by omega
      rw [hn] at e
      cases e2 : scanBack f (p1 - start) ((p1 : Int) - 1) st1 with
      | none => rw [e2] at e; cases e
      | some st2 =>
        rw [e2] at e
        simp only at e
        obtain ⟨_, ⟨p', i1, i2, i3, i4⟩, i5⟩ := scan_off (gr := gr) (len := len) hf hacc hgf hs (p1 - start) st1 st2 p1 (by omega) hlen1 (fun _ => hp1) e2
        obtain ⟨j1, ⟨p'', j2, j3, j4, j5, j7⟩, j6⟩ := back_off hf hb hR hbad hacc hgf hgb hs n st2 b st' p' i1 i2 (by omega) (hR p1 p' hr1 i2 i3) i4 e
        exact ⟨j1, ⟨p'', j2, j3, j4, j5, j7⟩, fun hg => by rw [j6 hg, i5 hg, hgb hg st st1 p hp h2 h3 e1]⟩
end

/-- What a greedy loop does: what a possessive one does, or everything fails. -/
theorem grow_core {bt f h : K} {len : Nat} {Bad R : Nat → Prop} {gr : Prop} {lo hi i : Nat} (hlo : lo ≤ hi) (hhi : 0 < hi)
    (hf : ∀ (st st' : St) (p : Nat), st.pos = (p : Int) → p ≤ len → f st = some st' → st'.accepted = false → st'.pos = (p : Int))
    (hb : ∀ (st st' : St) (p : Nat), st.pos = (p : Int) → p ≤ len → R p → bt st = some st' → st'.accepted = false → ∃ p' : Nat, st'.pos = (p' : Int) ∧ p ≤ p' ∧ p' ≤ len ∧ R p')
    (hR : ∀ p p' : Nat, R p → i ≤ p' → p' ≤ p → R p')
    (hpos : ∀ (a b : St) (p : Nat), a.pos = (p : Int) → p ≤ len → f a = some b → b.accepted = true → ∃ p' : Nat, b.pos = (p' : Int) ∧ p ≤ p' ∧ p' ≤ len)
    (hbad : ∀ (st st' : St) (p : Nat), st.pos = (p : Int) → p ≤ len → Bad p → bt st = some st' → st'.accepted = false)
    (hno : ∀ (st st' : St) (p : Nat), st.pos = (p : Int) → p ≤ len → bt st = some st' → st.accepted = true → st'.accepted = false → Bad p)
    (hacc : (∃ p, p ≤ len ∧ Bad p) → ∀ (st st' : St) (p : Nat), st.pos = (p : Int) → p ≤ len → f st = some st' → st'.accepted = true → Bad p)
    (hgf : gr → ∀ (st st' : St) (p : Nat), st.pos = (p : Int) → p ≤ len → f st = some st' → st'.groups = st.groups)
    (hgb : gr → ∀ (st st' : St) (p : Nat), st.pos = (p : Int) → p ≤ len → Bad p → bt st = some st' → st'.groups = st.groups)
    {st st' : St} (hi0 : st.pos = (i : Int)) (hi' : i ≤ len)
    (hRy : ∀ (st2 : St) (ey : Nat), possLoop f lo hi 0 st.pos st = some (true, st2) → st2.accepted = true → st2.pos = (ey : Int) → R ey)
    (e : greedyK bt f h lo hi st = some st') :
    (possLoop f lo hi 0 st.pos st = some (false, st')) ∨
    ∃ st2 : St, possLoop f lo hi 0 st.pos st = some (true, st2) ∧ st2.accepted = true ∧
      (h st2 = some st' ∨ (bt st2 = some st' ∧ st'.accepted = true) ∨
        (∃ (ey p' : Nat) (stz sy : St), st2.pos = (ey : Int) ∧ ey ≤ len ∧ i ≤ p' ∧ p' ≤ len ∧ R p' ∧ stz.pos = (p' : Int) ∧ Bad p' ∧ Bad ey ∧
          bt st2 = some sy ∧ sy.accepted = false ∧ (gr → stz.groups = st2.groups) ∧ h { stz with accepted := true } = some st')) := by
  have hsplit := poss_split f lo (hi - lo) lo 0 st (by omega)
  rw [show lo + (hi - lo) = hi by omega] at hsplit
  have rep_pos : ∀ (n : Nat) (a b : St) (p : Nat), a.pos = (p : Int) → p ≤ len → repLoop f n a = some (true, b) → ∃ p' : Nat, b.pos = (p' : Int) ∧ p ≤ p' ∧ p' ≤ len := by
    intro n
    induction n with
    | zero =>
      intro a b p h1 h2 e
      simp only [repLoop, Option.some.injEq, Prod.mk.injEq, true_and] at e
      subst e
      exact ⟨p, h1, Nat.le_refl _, h2⟩
    | succ n ih =>
      intro a b p h1 h2 e
      simp only [repLoop] at e
      cases e1 : f a with
      | none => rw [e1] at e; cases e
      | some a1 =>
        rw [e1] at e
        simp only at e
        cases ha : a1.accepted with
        | false => simp [ha] at e
        | true =>
          simp only [ha, if_true] at e
          obtain ⟨p1, x1, x2, x3⟩ := hpos a a1 p h1 h2 e1 ha
          obtain ⟨p2, y1, y2, y3⟩ := ih a1 b p1 x1 x3 e
          exact ⟨p2, y1, by omega, y3⟩
  have rep_acc : ∀ (n : Nat) (a b : St), a.accepted = true ∨ 0 < n → repLoop f n a = some (true, b) → b.accepted = true := by
    intro n
    induction n with
    | zero =>
      intro a b h e
      simp only [repLoop, Option.some.injEq, Prod.mk.injEq, true_and] at e
      subst e
      rcases h with h | h
      · exact h
      · omega
    | succ n ih =>
      intro a b h e
      simp only [repLoop] at e
      cases e1 : f a with
      | none => rw [e1] at e; cases e
      | some a1 =>
        rw [e1] at e
        simp only at e
        cases ha : a1.accepted with
        | false => simp [ha] at e
        | true =>
          simp only [ha, if_true] at e
          exact ih a1 b (.inl ha) e
  have poss_pos : ∀ (n j : Nat) (a b : St) (p : Nat), a.pos = (p : Int) → p ≤ len → possLoop f lo n j a.pos a = some (true, b) → ∃ p' : Nat, b.pos = (p' : Int) ∧ p ≤ p' ∧ p' ≤ len := by
    intro n
    induction n with
    | zero =>
      intro j a b p h1 h2 e
      simp only [possLoop, Option.some.injEq, Prod.mk.injEq, true_and] at e
      subst e
      exact ⟨p, h1, Nat.le_refl _, h2⟩
    | succ n ih =>
      intro j a b p h1 h2 e
      simp only [possLoop] at e
      cases e1 : f a with
      | none => rw [e1] at e; cases e
      | some a1 =>
        rw [e1] at e
        simp only at e
        cases ha : a1.accepted with
        | false =>
          simp only [ha, Bool.false_eq_true, if_false] at e
          split at e
          · cases e
          · cases e; exact ⟨p, h1, Nat.le_refl _, h2⟩
        | true =>
          simp only [ha, if_true] at e
          obtain ⟨p1, x1, x2, x3⟩ := hpos a a1 p h1 h2 e1 ha
          obtain ⟨p2, y1, y2, y3⟩ := ih (j + 1) a1 b p1 x1 x3 e
          exact ⟨p2, y1, by omega, y3⟩
  simp only [greedyK] at e
  rw [hsplit]
  cases e1 : repLoop f lo st with
  | none => rw [e1] at e; cases e
  | some x =>
    obtain ⟨b, st1⟩ := x
    rw [e1] at e
    cases b with
    | false =>
      simp only [Option.some.injEq] at e
      subst e
      exact .inl rfl
    | true =>
      right
      simp only at e ⊢
      obtain ⟨p1, hp1, hle1, hlen1⟩ := rep_pos lo st st1 i hi0 hi' e1
      cases e2 : growLoop f (hi - lo) lo st1 with
      | none => rw [e2] at e; cases e
      | some y =>
        obtain ⟨k, st2⟩ := y
        rw [e2] at e
        simp only at e
        obtain ⟨g1, g2, g3, g4⟩ := grow_poss hf lo hpos (hi - lo) lo st1 k st2 p1 hp1 hlen1 (Nat.le_refl _) e2
        have hac : st2.accepted = true := by
          refine g4 ?_
          by_cases h0 : 0 < lo
          · exact .inl (rep_acc lo st st1 (.inr h0) e1)
          · right; omega
        refine ⟨st2, g1, hac, ?_⟩
        obtain ⟨ey, hey, hley, hlen2⟩ := poss_pos (hi - lo) lo st1 st2 p1 hp1 hlen1 g1
        cases hn : k - lo with
        | zero =>
          rw [hn] at e
          simp only [btLoop] at e
          have hid : ({ st2 with accepted := true } : St) = st2 := by rw [← hac]
          rw [hid] at e
          exact .inl e
        | succ n =>
          rw [hn, hp1] at e
          obtain ⟨a1, ea, haa⟩ := g3 (by omega)
          cases e3 : bt st2 with
          | none => simp [btLoop, e3] at e
          | some st3 =>
            cases h3 : st3.accepted with
            | true =>
              simp only [btLoop, e3, h3, if_true, Option.some.injEq] at e
              subst e
              exact .inr (.inl ⟨rfl, h3⟩)
            | false =>
              right; right
              have hB : Bad ey := hno st2 st3 ey hey hlen2 e3 hac h3
              have hacc' := hacc ⟨ey, hlen2, hB⟩
              cases e4 : btLoop bt f (p1 : Int) (n + 1) st2 with
              | none => rw [e4] at e; cases e
              | some z =>
                obtain ⟨b, stz⟩ := z
                rw [e4] at e
                obtain ⟨z1, ⟨p', z2, z3, z4, z5, z7⟩, z6⟩ := back_off (gr := gr) (R := R) (start := p1) hf hb (fun p p' h1 h2 h3 => hR p p' h1 (by omega) h3) hbad hacc' hgf hgb
                  (hacc' st1 a1 p1 hp1 hlen1 ea haa) (n + 1) st2 b stz ey hey hley hlen2 (hRy st2 ey (by rw [hsplit, e1]; exact g1) hac hey) hB e4
                subst z1
                simp only at e
                exact ⟨ey, p', stz, st3, hey, hlen2, by omega, z4, z5, z2, z7, hB, rfl, h3, z6, e⟩

theorem inClass_none {q : List Int} {i d : Nat} (h : InClass q (fun _ => false) i d) : d = 0 := by
  cases d with
  | zero => rfl
  | succ d => obtain ⟨c, _, hc⟩ := h 0 (by omega); cases hc

theorem inClass_less {q : List Int} {S : Int → Bool} {i d d' : Nat} (h : InClass q S i d) (hd : d' ≤ d) : InClass q S i d' :=
  fun j hj => h j (by omega)

/-- Nothing is known about the captures. -/
theorem agree_any (gs : List (Option (Int × Int))) : AgreeG false gs (fun _ => none) := ⟨fun k a b h => (by cases h), fun h => (by cases h)⟩

/-- A greedy loop in front of something that matches at no place where the body matches, or everywhere. -/
theorem acts_grow {cx : Ctx} (hlen : cx.query.length < umax) {f h : K} {g g' : Nat → Caps → Option Way} {sl sl' wi : (Int → Bool) → Bool} {mu mu' tt : Bool} {C C' : Nat}
    (hf : ∀ ex, Acts ex cx false f g sl mu C) (hh : ∀ ex, Acts ex cx false h g' sl' mu' C') (hl : Link cx g g' wi tt)
    (hfeed : ∀ w v : Way, g w.1 w.2 = some v → w.1 ≤ cx.query.length → w.1 < v.1) (k : Quant) {hi : Nat} (hk : k.hi = some hi ∨ k.hi = none ∧ hi = umax)
    (hlo : k.lo ≤ hi) (hpos : 0 < hi) (hmu : mu = true) (hsl : sl (fun _ => false) = true) (hsl' : sl' (fun _ => true) = true)
    (hpart : (∀ w : Way, ∃ v, g' w.1 w.2 = some v) ∨ ∀ i c v, i ≤ cx.query.length → g i c = some v → g' i (fun _ => none) = none) (ex : Bool) :
    Acts ex cx false (greedyK h f h k.lo hi) (fun i c => (k.go cx.query.length g (i, c)).bind (fun w => g' w.1 w.2))
      (fun S => (k.lo == 0 || (sl S && (k.lo == 1 || wi S))) && (tt || (sl' S && wi S))) ((C == 0 && mu') || (mu && decide (k.lo ≤ 1) && tt)) (C + C') := by
  intro st st' i c hp hi' hfl ha e
  have hloop := acts_loop hlen (hf ex) (hh ex).flag hl hfeed k hk hlo hpos (.inr hmu)
  have hid : Acts ex cx true (fun st => some st) (fun i c => some (i, c)) (fun _ => true) true 0 := by
    intro st st' i c hp hi hfl ha e
    cases e
    exact ⟨fun w hw => by cases hw; exact ⟨hfl rfl, hp, ha⟩, fun h => (by cases h), fun h => (by cases h), fun h => (by cases h), fun _ => rfl⟩
  have hposs := acts_loop hlen (hf ex) hid ⟨hl.fwd, hl.over, fun _ w => ⟨w, rfl⟩⟩ (tt := true) hfeed k hk hlo hpos (.inr hmu)
  have mid : ∀ st2, possLoop f k.lo hi 0 st.pos st = some (true, st2) → st2.accepted = true →
      ∃ w, k.go cx.query.length g (i, c) = some w ∧ st2.pos = (w.1 : Int) ∧ (C = 0 → st2.groups = st.groups) := by
    intro st2 e2 hacc
    have o := hposs st st2 i c hp hi' hfl ha (by simp only [loopK, e2])
    cases hgo : k.go cx.query.length g (i, c) with
    | none => have := o.no (by simp only [hgo, Option.bind_none]); rw [hacc] at this; cases this
    | some w => exact ⟨w, rfl, (o.yes w (by simp only [hgo, Option.bind_some])).2.1, fun hC => o.calm (by omega)⟩
  have key := grow_core (bt := h) (f := f) (h := h) (len := cx.query.length) (Bad := fun p => g' p (fun _ => none) = none)
    (R := fun p => i ≤ p ∧ ∀ S, sl' S = true → wi S = true → InClass cx.query S i (p - i)) (gr := C = 0 ∧ (mu' = true ∨ C' = 0)) (i := i) hlo hpos
    (fun st st' p hp hl e hno => by
      have o := hf false st st' p _ hp hl (by simp) (agree_any _) e
      cases hg : g p (fun _ => none) with
      | some v => rw [(o.yes v hg).1] at hno; cases hno
      | none =>
        obtain ⟨d, hd1, hd2⟩ := o.slip hg _ hsl
        have := inClass_none hd2
        subst this
        exact hd1)
    (fun st st' p hp hl hR e hno => by
      have o := hh false st st' p _ hp hl (by simp) (agree_any _) e
      cases hg : g' p (fun _ => none) with
      | some v => rw [(o.yes v hg).1] at hno; cases hno
      | none =>
        obtain ⟨d, hd1, hd2⟩ := o.slip hg _ hsl'
        refine ⟨p + d, hd1, by omega, inClass_len hd2 hl, by omega, fun S h1 h2 => ?_⟩
        obtain ⟨d', hd3, hd4⟩ := o.slip hg S h1
        have : d' = d := by have := hd1.symm.trans hd3; omega
        subst this
        have := inClass_add.2 ⟨hR.2 S h1 h2, (by rw [show i + (p - i) = p by omega]; exact hd4)⟩
        rwa [show p + d' - i = (p - i) + d' by omega])
    (fun p p' hR h1 h2 => ⟨h1, fun S x y => inClass_less (hR.2 S x y) (by omega)⟩)
    (fun st st' p hp hle e hacc => by
      have o := hf false st st' p _ hp hle (by simp) (agree_any _) e
      cases hg : g p (fun _ => none) with
      | none => rw [o.no hg] at hacc; cases hacc
      | some v =>
        have := hl.fwd (p, fun _ => none) v hg hle
        exact ⟨v.1, (o.yes v hg).2.1, this.1, this.2⟩)
    (fun st st' p hp hl hB e => (hh false st st' p _ hp hl (by simp) (agree_any _) e).no hB)
    (fun st st' p hp hl e _ hno => by
      have o := hh false st st' p _ hp hl (by simp) (agree_any _) e
      cases hg : g' p (fun _ => none) with
      | none => rfl
      | some v => rw [(o.yes v hg).1] at hno; cases hno)
    (fun ⟨p0, _, hB⟩ st st' p hp hl e hacc => by
      have o := hf false st st' p _ hp hl (by simp) (agree_any _) e
      cases hg : g p (fun _ => none) with
      | none => rw [o.no hg] at hacc; cases hacc
      | some v =>
        rcases hpart with ht | hq
        · obtain ⟨u, hu⟩ := ht (p0, fun _ => none); simp only [hB] at hu; cases hu
        · exact hq p _ v hl hg)
    (fun hg st st' p hp hl e => (hf false st st' p _ hp hl (by simp) (agree_any _) e).calm hg.1)
    (fun hg st st' p hp hl hB e => by
      have o := hh false st st' p _ hp hl (by simp) (agree_any _) e
      rcases hg.2 with h | h
      · exact o.mute hB h
      · exact o.calm h)
    hp hi'
    (fun st2 ey e2 hacc hey => by
      obtain ⟨w, hw, hw1, _⟩ := mid st2 e2 hacc
      have : w.1 = ey := by rw [hw1] at hey; omega
      subst this
      refine ⟨(quant_rel (fwd_refl cx.query) (fwd_trans cx.query) hl.fwd hw hi').1, fun S h1 h2 => ?_⟩
      obtain ⟨d, hd1, hd2⟩ := quant_rel (over_refl cx.query S) (over_trans cx.query S) (hl.over S h2) hw
      simp only at hd1 hd2
      rwa [hd1, show i + d - i = d by omega]) e
  rcases key with h1 | ⟨st2, h1, hacc, h2 | ⟨h2, _⟩ | ⟨ey, p', stz, sy, hey, hle, hip, hpl, hR, hpz, hB, hBe, h3, h4, h5, h6⟩⟩
  · exact hloop st st' i c hp hi' hfl ha (by simp only [loopK, h1])
  · exact hloop st st' i c hp hi' hfl ha (by simp only [loopK, h1, h2])
  · exact hloop st st' i c hp hi' hfl ha (by simp only [loopK, h1, h2])
  · have o := hloop st sy i c hp hi' hfl ha (by simp only [loopK, h1, h3])
    have hnone : (k.go cx.query.length g (i, c)).bind (fun w => g' w.1 w.2) = none := by
      cases hx : (k.go cx.query.length g (i, c)).bind (fun w => g' w.1 w.2) with
      | none => rfl
      | some w => have := (o.yes w hx).1; rw [h4] at this; cases this
    have ht : tt = false := by
      cases htt : tt with
      | false => rfl
      | true => obtain ⟨u, hu⟩ := hl.total htt (ey, fun _ => none); simp only [hBe] at hu; cases hu
    have oz := hh false _ st' p' _ (by exact hpz) hpl (by simp) (agree_any _) h6
    obtain ⟨w, hw, hw1, hw2⟩ := mid st2 h1 hacc
    show OutG ex cx.query i st st' ((k.go cx.query.length g (i, c)).bind (fun w => g' w.1 w.2)) _ _ _
    rw [hnone]
    refine ⟨fun w hw => (by cases hw), fun _ => oz.no hB, fun _ S hS => ?_, fun _ hm => ?_, fun hC => ?_⟩
    · simp only [Bool.and_eq_true, Bool.or_eq_true, ht, Bool.false_eq_true, false_or] at hS
      obtain ⟨d, hd1, hd2⟩ := oz.slip hB S hS.2.1
      refine ⟨(p' - i) + d, by rw [hd1]; congr 1; omega, inClass_add.2 ⟨hR.2 S hS.2.1 hS.2.2, ?_⟩⟩
      rwa [show i + (p' - i) = p' by omega]
    · simp only [Bool.or_eq_true, Bool.and_eq_true, beq_iff_eq, ht, Bool.false_eq_true, and_false, or_false] at hm
      rw [oz.mute hB hm.2]
      show stz.groups = _
      rw [h5 ⟨hm.1, .inl hm.2⟩, hw2 hm.1]
    · have h1 : C = 0 := by omega
      have h2 : C' = 0 := by omega
      rw [oz.calm h2]
      show stz.groups = _
      rw [h5 ⟨h1, .inr h2⟩, hw2 h1]

end ERegex

import Verif.Proofs.CommitHard
import Verif.Proofs.CommitTwice
import Verif.Proofs.CommitGrow
import Verif.Proofs.PreferRun
/-!
# What the trees of patterns with nested groups do
-/
set_option autoImplicit false
namespace ERegex
open ERegex.Spec

section
variable {cx : Ctx} {ex : Bool}

theorem Acts.up {fl : Bool} {f : K} {g : Nat → Caps → Option Way} {sl : (Int → Bool) → Bool} {mu : Bool} {C : Nat} (h : Acts ex cx fl f g sl mu C) :
    Acts ex cx true f g sl mu C := fun st st' i c h1 h2 h3 h4 e => h st st' i c h1 h2 (fun _ => h3 rfl) h4 e

/-! ## characters -/

theorem inClass_stop {q : List Int} {i d : Nat} (h : InClass q (fun _ => false) i d) : d = 0 := by
  cases d with
  | zero => rfl
  | succ d => obtain ⟨c, _, hc⟩ := h 0 (by omega); cases hc

theorem one_class {q : List Int} {S : Int → Bool} {i : Nat} {c : Caps} : oneG q S i c = some (i + 1, c) ↔ InClass q S i 1 := by
  constructor
  · intro e
    obtain ⟨x, h1, h2, _⟩ := one_some e
    exact inClass_one h1 h2
  · intro h
    obtain ⟨x, h1, h2⟩ := h 0 (by omega)
    simp only [Nat.add_zero] at h1
    simp [oneG, h1, h2]

theorem one_not {q : List Int} {S : Int → Bool} {i : Nat} {c : Caps} (h : ¬ InClass q S i 1) : oneG q S i c = none := by
  cases e : oneG q S i c with
  | none => rfl
  | some w =>
    obtain ⟨x, h1, h2, _⟩ := one_some e
    exact absurd (inClass_one h1 h2) h

theorem acts_char {a : Atom} (hg : ∀ c as, a ≠ .group c as) {m : Node} (ha : Atomic a m) (n : Nat) :
    Acts ex cx false (run cx m []) (a.go cx.query n) (fun S => a.slips S) a.mute a.count := by
  intro st st' i c hp hi _ hag e
  rw [atom_go hg]
  have hs := stepSpec_run cx m ha.one []
  rw [ha.test] at hs
  by_cases hc : InClass cx.query a.set i 1
  · rw [hs.yes st i hp hc] at e
    cases e
    rw [one_class.2 hc]
    exact ⟨fun w hw => by cases hw; exact ⟨rfl, rfl, hag⟩, fun h => (by cases h), fun h => (by cases h), fun h => (by cases h), fun _ => rfl⟩
  · obtain ⟨r, h1, h2, h3, h4⟩ := hs.no st i hp hc
    rw [h1] at e
    cases e
    rw [one_not hc]
    refine ⟨fun w hw => (by cases hw), fun _ => h2, fun _ S hS => ?_, fun _ _ => h4, fun _ => h4⟩
    have hst : a.steady = true := by cases a <;> first | exact hS | exact absurd rfl (hg _ _)
    rw [run_single cx m (ha.steady hst), ha.test, step_no hp hc] at h1
    cases h1
    exact ⟨0, hp, inClass_zero _ _ _⟩

/-! ## captures -/

/-- A group: the part of the text is stored. -/
def capK (j : Nat) (f : K) : K := fun st => match f st with
  | none => none
  | some st' => if st'.accepted then (if j < st'.groups.length then some { st' with groups := st'.groups.set j (some (st.pos, st'.pos)) } else none) else some st'

theorem agree_set {gs : List (Option (Int × Int))} {c : Caps} (h : AgreeG ex gs c) {j a b : Nat} (hj : j < gs.length) :
    AgreeG ex (gs.set j (some ((a : Int), (b : Int)))) (c.with j a b) := by
  refine ⟨fun k x y e => ?_, fun hx k hk e => ?_⟩
  · simp only [Caps.with] at e
    split at e
    · rename_i hkj
      cases e
      have : k = j := by first | exact hkj | simpa using hkj
      subst this
      rw [List.getElem?_set_self hj]
    · rename_i hkj
      have : j ≠ k := by
        intro h; apply hkj; first | exact h.symm | simp [h]
      rw [List.getElem?_set_ne this]
      exact h.1 k x y e
  · simp only [Caps.with] at e
    split at e
    · cases e
    · rename_i hkj
      have : j ≠ k := by
        intro h; apply hkj; first | exact h.symm | simp [h]
      rw [List.getElem?_set_ne this]
      exact h.2 hx k (by simpa using hk) e

theorem out_cap {g : Nat → Caps → Option Way} {sl : (Int → Bool) → Bool} {mu : Bool} {C j i : Nat} {c : Caps} {st st1 st' : St} (hp : st.pos = (i : Int))
    (o : OutG ex cx.query i st st1 (g i c) sl mu C)
    (e : (if st1.accepted then (if j < st1.groups.length then some { st1 with groups := st1.groups.set j (some (st.pos, st1.pos)) } else none) else some st1) = some st') :
    OutG ex cx.query i st st' ((g i c).map (fun w => (w.1, w.2.with j i w.1))) sl mu (C + 1) := by
  cases hg : g i c with
  | none =>
    rw [hg] at o
    have hacc := o.no rfl
    simp only [hacc, Bool.false_eq_true, if_false, Option.some.injEq] at e
    subst e
    exact ⟨fun w hw => (by cases hw), fun _ => hacc, fun _ => o.slip rfl, fun _ => o.mute rfl, fun h => (by omega)⟩
  | some w =>
    rw [hg] at o
    obtain ⟨h1, h2, h3⟩ := o.yes w rfl
    simp only [h1, if_true] at e
    split at e
    · rename_i hj
      cases e
      refine ⟨fun v hv => ?_, fun h => (by cases h), fun h => (by cases h), fun h => (by cases h), fun h => (by omega)⟩
      simp only [Option.map_some, Option.some.injEq] at hv
      subst hv
      refine ⟨by first | rfl | exact h1, h2, ?_⟩
      rw [hp, h2]
      exact agree_set h3 hj
    · cases e

theorem acts_cap {fl : Bool} {f : K} {g : Nat → Caps → Option Way} {sl : (Int → Bool) → Bool} {mu : Bool} {C j : Nat} (hf : Acts ex cx fl f g sl mu C) :
    Acts ex cx fl (capK j f) (fun i c => (g i c).map (fun w => (w.1, w.2.with j i w.1))) sl mu (C + 1) := by
  intro st st' i c hp hi hfl hag e
  simp only [capK] at e
  cases e1 : f st with
  | none => rw [e1] at e; cases e
  | some st1 =>
    rw [e1] at e
    exact out_cap hp (hf st st1 i c hp hi hfl hag e1) e

/-- Something tried with the position restored. -/
def lookK (h : K) : K := fun st => match h st with
  | none => none
  | some st' => some { st' with pos := st.pos }

/-- A greedy loop right inside a group, in front of something that matches at no place where the body matches, or everywhere. -/
theorem acts_run (hlen : cx.query.length < umax) {f h : K} {g g' : Nat → Caps → Option Way} {sl sl' wi : (Int → Bool) → Bool} {mu mu' tt : Bool} {C C' j : Nat}
    (hf : ∀ ex, Acts ex cx false f g sl mu C) (hh : ∀ ex, Acts ex cx false h g' sl' mu' C') (hl : Link cx g g' wi tt)
    (hsame : SameEnds g' g') (hpaint : Paints g')
    (hfeed : ∀ w v : Way, g w.1 w.2 = some v → w.1 ≤ cx.query.length → w.1 < v.1) (k : Quant) {hi : Nat} (hk : k.hi = some hi ∨ k.hi = none ∧ hi = umax)
    (hlo : k.lo ≤ hi) (hpos : 0 < hi) (hmu : mu = true) (hsl : sl (fun _ => false) = true)
    (hpart : (∀ w : Way, ∃ v, g' w.1 w.2 = some v) ∨ ∀ i c v, i ≤ cx.query.length → g i c = some v → g' i (fun _ => none) = none)
    (hlc : Link cx (fun i c => ((k.go cx.query.length g (i, c)).bind (fun w => some (w.1, w.2))).map (fun w => (w.1, w.2.with j i w.1))) g' wi tt) (ex : Bool) :
    Acts ex cx false (seqK (capK j (greedyK (lookK h) f (fun st => some st) k.lo hi)) h)
      (fun i c => (((k.go cx.query.length g (i, c)).bind (fun w => some (w.1, w.2))).map (fun w => (w.1, w.2.with j i w.1))).bind (fun w => g' w.1 w.2))
      (fun S => ((k.lo == 0 || (sl S && (k.lo == 1 || wi S))) && (true || (true && wi S))) && (tt || (sl' S && wi S)))
      ((C + 1 == 0 && mu') || (((C == 0 && true) || (mu && decide (k.lo ≤ 1) && true)) && tt)) (C + 1 + C') := by
  intro st st' i c hp hi' hfl ha e
  have hid : Acts ex cx true (fun st => some st) (fun i c => some (i, c)) (fun _ => true) true 0 := by
    intro st st' i c hp hi hfl ha e
    cases e
    exact ⟨fun w hw => by cases hw; exact ⟨hfl rfl, hp, ha⟩, fun h => (by cases h), fun h => (by cases h), fun h => (by cases h), fun _ => rfl⟩
  have hposs := acts_loop hlen (hf ex) hid ⟨hl.fwd, hl.over, fun _ w => ⟨w, rfl⟩⟩ (tt := true) hfeed k hk hlo hpos (.inr hmu)
  have mid : ∀ st2, possLoop f k.lo hi 0 st.pos st = some (true, st2) → st2.accepted = true →
      ∃ w, k.go cx.query.length g (i, c) = some w ∧ st2.pos = (w.1 : Int) := by
    intro st2 e2 hacc
    have o := hposs st st2 i c hp hi' hfl ha (by simp only [loopK, e2])
    cases hgo : k.go cx.query.length g (i, c) with
    | none => have := o.no (by simp only [hgo, Option.bind_none]); rw [hacc] at this; cases this
    | some w => exact ⟨w, rfl, (o.yes w (by simp only [hgo, Option.bind_some])).2.1⟩
  simp only [seqK, capK] at e
  cases e1 : greedyK (lookK h) f (fun st => some st) k.lo hi st with
  | none => rw [e1] at e; cases e
  | some sx =>
    rw [e1] at e
    simp only at e
    have look : ∀ (st st' : St) (p : Nat), st.pos = (p : Int) → p ≤ cx.query.length → lookK h st = some st' →
        st'.pos = st.pos ∧ (st'.accepted = false ↔ g' p (fun _ => none) = none) := by
      intro st st' p hp hl e
      simp only [lookK] at e
      cases e2 : h st with
      | none => rw [e2] at e; cases e
      | some s2 =>
        rw [e2] at e
        simp only [Option.some.injEq] at e
        subst e
        have o := hh false st s2 p _ hp hl (by simp) (agree_any _) e2
        refine ⟨rfl, fun hno => ?_, fun hg => o.no hg⟩
        cases hg : g' p (fun _ => none) with
        | none => rfl
        | some v => have := (o.yes v hg).1; rw [show s2.accepted = false from hno] at this; cases this
    have key := grow_core (bt := lookK h) (f := f) (h := fun st => some st) (len := cx.query.length) (Bad := fun p => g' p (fun _ => none) = none)
      (R := fun p => i ≤ p ∧ ∀ S, wi S = true → InClass cx.query S i (p - i)) (gr := False) (i := i) hlo hpos
      (fun st st' p hp hl e hno => by
        have o := hf false st st' p _ hp hl (by simp) (agree_any _) e
        cases hg : g p (fun _ => none) with
        | some v => rw [(o.yes v hg).1] at hno; cases hno
        | none =>
          obtain ⟨d, hd1, hd2⟩ := o.slip hg _ hsl
          have := inClass_none hd2
          subst this
          exact hd1)
      (fun st st' p hp hl hR e _ => ⟨p, by rw [(look st st' p hp hl e).1, hp], Nat.le_refl _, hl, hR⟩)
      (fun p p' hR h1 h2 => ⟨h1, fun S y => inClass_less (hR.2 S y) (by omega)⟩)
      (fun st st' p hp hle e hacc => by
        have o := hf false st st' p _ hp hle (by simp) (agree_any _) e
        cases hg : g p (fun _ => none) with
        | none => rw [o.no hg] at hacc; cases hacc
        | some v =>
          have := hl.fwd (p, fun _ => none) v hg hle
          exact ⟨v.1, (o.yes v hg).2.1, this.1, this.2⟩)
      (fun st st' p hp hl hB e => (look st st' p hp hl e).2.2 hB)
      (fun st st' p hp hl e _ hno => (look st st' p hp hl e).2.1 hno)
      (fun ⟨p0, _, hB⟩ st st' p hp hl e hacc => by
        have o := hf false st st' p _ hp hl (by simp) (agree_any _) e
        cases hg : g p (fun _ => none) with
        | none => rw [o.no hg] at hacc; cases hacc
        | some v =>
          rcases hpart with ht | hq
          · obtain ⟨u, hu⟩ := ht (p0, fun _ => none); simp only [hB] at hu; cases hu
          · exact hq p _ v hl hg)
      (fun hg => hg.elim) (fun hg => hg.elim) hp hi'
      (fun st2 ey e2 hacc hey => by
        obtain ⟨w, hw, hw1⟩ := mid st2 e2 hacc
        have : w.1 = ey := by rw [hw1] at hey; omega
        subst this
        refine ⟨(quant_rel (fwd_refl cx.query) (fwd_trans cx.query) hl.fwd hw hi').1, fun S h2 => ?_⟩
        obtain ⟨d, hd1, hd2⟩ := quant_rel (over_refl cx.query S) (over_trans cx.query S) (hl.over S h2) hw
        simp only at hd1 hd2
        rwa [hd1, show i + d - i = d by omega]) e1
    have fin : OutG ex cx.query i st sx ((k.go cx.query.length g (i, c)).bind (fun w => some (w.1, w.2))) (fun S => (k.lo == 0 || (sl S && (k.lo == 1 || wi S))) && (true || (true && wi S)))
        ((C == 0 && true) || (mu && decide (k.lo ≤ 1) && true)) (C + 0) →
        OutG ex cx.query i st st' ((((k.go cx.query.length g (i, c)).bind (fun w => some (w.1, w.2))).map (fun w => (w.1, w.2.with j i w.1))).bind (fun w => g' w.1 w.2))
          (fun S => ((k.lo == 0 || (sl S && (k.lo == 1 || wi S))) && (true || (true && wi S))) && (tt || (sl' S && wi S)))
          ((C + 1 == 0 && mu') || (((C == 0 && true) || (mu && decide (k.lo ≤ 1) && true)) && tt)) (C + 1 + C') := fun o => by
      cases e2 : (if sx.accepted then (if j < sx.groups.length then some { sx with groups := sx.groups.set j (some (st.pos, sx.pos)) } else none) else some sx) with
      | none => rw [e2] at e; cases e
      | some s2 =>
        rw [e2] at e
        have oc := out_cap (g := fun i c => (k.go cx.query.length g (i, c)).bind (fun w => some (w.1, w.2))) (c := c) hp o e2
        exact out_seq (g := fun i c => ((k.go cx.query.length g (i, c)).bind (fun w => some (w.1, w.2))).map (fun w => (w.1, w.2.with j i w.1))) (c := c) hi' oc (hh ex).flag hlc e
    rcases key with h1 | ⟨st2, h1, hacc, h2 | ⟨h2, hacc2⟩ | ⟨ey, p', stz, sy, hey, hle, hip, hpl, hR, hpz, hB, hBe, h3, h4, _, h6⟩⟩
    · exact fin (hposs st sx i c hp hi' hfl ha (by simp only [loopK, h1]))
    · cases h2
      exact fin (hposs st sx i c hp hi' hfl ha (by simp only [loopK, h1]))
    · have o := hposs st st2 i c hp hi' hfl ha (by simp only [loopK, h1])
      obtain ⟨w, hw, hw1⟩ := mid st2 h1 hacc
      have hwl : w.1 ≤ cx.query.length := (quant_rel (fwd_refl cx.query) (fwd_trans cx.query) hl.fwd hw hi').2
      have hsx : sx.pos = (w.1 : Int) := by rw [(look st2 sx w.1 hw1 hwl h2).1, hw1]
      simp only [lookK] at h2
      cases e3 : h st2 with
      | none => rw [e3] at h2; cases h2
      | some s3 =>
        rw [e3] at h2
        simp only [Option.some.injEq] at h2
        obtain ⟨_, _, b3⟩ := o.yes w (by simp only [hw, Option.bind_some])
        have oh := hh ex st2 s3 w.1 w.2 hw1 hwl (by simp) b3 e3
        have hs3 : s3.accepted = true := by rw [← h2] at hacc2; exact hacc2
        cases hv : g' w.1 w.2 with
        | none => rw [oh.no hv] at hs3; cases hs3
        | some v =>
          have b4 : AgreeG ex sx.groups v.2 := by rw [← h2]; exact (oh.yes v hv).2.2
          simp only [hacc2, if_true] at e
          by_cases hj : j < sx.groups.length
          · simp only [if_pos hj, hacc2, if_true] at e
            have hag : AgreeG ex (sx.groups.set j (some (st.pos, sx.pos))) (v.2.with j i w.1) := by rw [hp, hsx]; exact agree_set b4 hj
            have oz := hh ex _ st' w.1 (v.2.with j i w.1) (by exact hsx) hwl (by simp) hag e
            rw [hpaint.twice hv] at oz
            have hres : (((k.go cx.query.length g (i, c)).bind (fun w => some (w.1, w.2))).map (fun w => (w.1, w.2.with j i w.1))).bind (fun w => g' w.1 w.2) = g' w.1 (w.2.with j i w.1) := by
              simp only [hw, Option.bind_some, Option.map_some]
            obtain ⟨u, hu, _⟩ := hsame.some (w.2.with j i w.1) hv
            show OutG ex cx.query i st st' ((((k.go cx.query.length g (i, c)).bind (fun w => some (w.1, w.2))).map (fun w => (w.1, w.2.with j i w.1))).bind (fun w => g' w.1 w.2)) _ _ _
            rw [hres]
            refine ⟨oz.yes, fun hn => ?_, fun hn => ?_, fun hn => ?_, fun hC => (by omega)⟩
            all_goals rw [hu] at hn; cases hn
          · simp only [if_neg hj] at e
            cases e
    · simp only [Option.some.injEq] at h6
      subst h6
      obtain ⟨w, hw, hw1⟩ := mid st2 h1 hacc
      have hwe : w.1 = ey := by rw [hw1] at hey; omega
      have hnone : (((k.go cx.query.length g (i, c)).bind (fun w => some (w.1, w.2))).map (fun w => (w.1, w.2.with j i w.1))).bind (fun w => g' w.1 w.2) = none := by
        simp only [hw, Option.bind_some, Option.map_some]
        rw [hwe]
        exact hsame.none _ hBe
      have ht : tt = false := by
        cases htt : tt with
        | false => rfl
        | true => obtain ⟨u, hu⟩ := hl.total htt (ey, fun _ => none); simp only [hBe] at hu; cases hu
      show OutG ex cx.query i st st' ((((k.go cx.query.length g (i, c)).bind (fun w => some (w.1, w.2))).map (fun w => (w.1, w.2.with j i w.1))).bind (fun w => g' w.1 w.2)) _ _ _
      rw [hnone]
      by_cases hj : j < stz.groups.length
      · simp only [if_true, if_pos hj] at e
        have oz := hh false _ st' p' _ (by exact hpz) hpl (by simp) (agree_any _) e
        refine ⟨fun w hw => (by cases hw), fun _ => oz.no hB, fun _ S hS => ?_, fun _ hm => ?_, fun hC => (by omega)⟩
        · simp only [Bool.and_eq_true, Bool.or_eq_true, ht, Bool.false_eq_true, false_or] at hS
          obtain ⟨d, hd1, hd2⟩ := oz.slip hB S hS.2.1
          refine ⟨(p' - i) + d, by rw [hd1]; congr 1; omega, inClass_add.2 ⟨hR.2 S hS.2.2, ?_⟩⟩
          rwa [show i + (p' - i) = p' by omega]
        · simp [ht] at hm
      · simp only [if_true, if_neg hj] at e
        cases e

theorem group_seq (x : Node) (j : Nat) (ds : List Node) (hx : strict x = true) (hd : stricts ds = true) (st : St) :
    run cx (.group x j ds) [] st = seqK (capK j (run cx x [])) (dfs (runs cx ds) []) st := by
  rw [run_group cx x j ds hx hd]
  simp only [seqK, capK]
  cases run cx x [] st with
  | none => rfl
  | some st1 =>
    simp only
    cases h : st1.accepted with
    | true =>
      simp only [if_true]
      split
      · simp [h]
      · rfl
    | false => simp [h]

/-- A group around a greedy loop: what follows the group is tried at the end of the loop. -/
theorem group_run {m : Node} {lo hi j : Nat} (d : Node) (hp : optPath m lo hi = false) (hd : strict d = true) (st : St) :
    run cx (.group (.greedy m lo hi []) j [d]) [] st = seqK (capK j (greedyK (lookK (run cx d [])) (run cx m []) (fun st => some st) lo hi)) (run cx d []) st := by
  have hb : greedyBacktrack (runs cx []) [run cx d []] = lookK (run cx d []) := by
    funext st
    simp only [greedyBacktrack, runs, List.isEmpty_nil, if_true, dfsInj, List.map, dfs, lookK]
    cases run cx d [] st <;> rfl
  have hg : run cx (.greedy m lo hi []) [run cx d []] = greedyK (lookK (run cx d [])) (run cx m []) (fun st => some st) lo hi := by
    funext st
    rw [run_greedy_loop cx [] hp, greedy_is, hb]
    rfl
  rw [run]
  simp only [groupMatch, runs, List.map, hg, dfs, run_strict cx d hd ([run cx d []] ++ []), seqK, capK]
  cases greedyK (lookK (run cx d [])) (run cx m []) (fun st => some st) lo hi st with
  | none => rfl
  | some st1 =>
    simp only
    cases h : st1.accepted with
    | true =>
      simp only [if_true]
      split
      · simp [h]
      · rfl
    | false => simp [h]

theorem group_cap (x : Node) (j : Nat) (hx : strict x = true) (st : St) : run cx (.group x j []) [] st = capK j (run cx x []) st := by
  rw [run_group cx x j [] hx rfl]
  simp only [capK, runs, dfs]
  rfl

theorem run_simple_nil (x : Node) (st : St) : run cx (.simple x []) [] st = run cx x [] st := by
  simp only [run, simpleMatch, runs, dfs]
  cases run cx x [] st with
  | none => rfl
  | some st1 =>
    simp only
    cases h : st1.accepted <;> simp

theorem run_joined {ms : List Node} {x : Node} (h : Joined ms x) : run cx x [] = dfs (runs cx ms) [] := by
  rcases h with rfl | rfl
  · simp only [run]
  · simp only [runs, dfs]

/-! ## the end of the text -/

theorem acts_nil {n : Nat} : Acts ex cx true (dfs (runs cx []) []) ((Sq.nil false).go cx.query n) (fun S => (Sq.nil false).slips S) (Sq.nil false).mute (Sq.nil false).count := by
  intro st st' i c hp hi hfl hag e
  simp only [runs, dfs, Option.some.injEq] at e
  subst e
  have : (Sq.nil false).go cx.query n i c = some (i, c) := rfl
  rw [this]
  exact ⟨fun w hw => by cases hw; exact ⟨hfl rfl, hp, hag⟩, fun h => (by cases h), fun h => (by cases h), fun h => (by cases h), fun _ => rfl⟩

theorem acts_dollar (hn : cx.post.head? = some 0) {f : K} (hf : ∀ st, f st = eolMatch cx st) {n : Nat} :
    Acts ex cx false f ((Sq.nil true).go cx.query n) (fun S => (Sq.nil true).slips S) (Sq.nil true).mute (Sq.nil true).count := by
  intro st st' i c hp hi _ hag e
  rw [hf] at e
  unfold eolMatch at e
  have hq : cx.qend = (cx.query.length : Int) := rfl
  have h0 : ¬ st.pos > cx.qend := by omega
  rw [if_neg h0] at e
  by_cases he : i = cx.query.length
  · have : st.pos = cx.qend := by rw [hp, hq, he]
    have hr : cx.read st.pos = some 0 := by rw [this, read_end, hn]
    rw [hr] at e
    simp only [this, decide_true] at e
    have hgo : (Sq.nil true).go cx.query n i c = some (i, c) := by simp [Sq.go, Sq.picks, he]
    rw [hgo]
    have e' : st' = { st with accepted := true, pos := cx.qend } := by
      have : (0 : Int) ≠ 10 := by decide
      simp only [this, if_false, Option.some.injEq] at e
      rw [← e]
    subst e'
    exact ⟨fun w hw => by cases hw; exact ⟨rfl, by simp only [hq, he], hag⟩, fun h => (by cases h), fun h => (by cases h), fun h => (by cases h), fun _ => rfl⟩
  · have hlt : st.pos < cx.qend := by omega
    have hr := read_query cx st.pos (by omega) hlt
    rw [hp] at hr
    simp only [Int.toNat_natCast] at hr
    cases hc : cx.query[i]? with
    | none => rw [List.getElem?_eq_none_iff] at hc; omega
    | some d =>
      rw [hc] at hr; rw [← hp] at hr
      rw [hr] at e
      simp only at e
      by_cases hd : d = 10
      · subst hd
        simp only [if_true, Option.some.injEq] at e
        subst e
        have hgo : (Sq.nil true).go cx.query n i c = some (i + 1, c) := by simp [Sq.go, Sq.picks, he, hc]
        rw [hgo]
        exact ⟨fun w hw => by cases hw; exact ⟨rfl, by simp only [hp]; rfl, hag⟩, fun h => (by cases h), fun h => (by cases h), fun h => (by cases h), fun _ => rfl⟩
      · have hne : ¬ st.pos = cx.qend := by omega
        simp only [hd, if_false, hne, decide_false, Option.some.injEq] at e
        subst e
        have hgo : (Sq.nil true).go cx.query n i c = none := by simp [Sq.go, Sq.picks, he, hc, hd]
        rw [hgo]
        exact ⟨fun w hw => (by cases hw), fun _ => rfl, fun _ S _ => ⟨0, hp, inClass_zero _ _ _⟩, fun _ _ => rfl, fun _ => rfl⟩

/-! ## alternatives, sequences, groups -/

theorem go_once (g : Nat → Caps → Option Way) (len i : Nat) (c : Caps) : Quant.once.go len g (i, c) = g i c := by
  simp only [Quant.go, Quant.lo, mustG, Quant.extra, Quant.hi, Nat.sub_self]
  cases g i c <;> rfl

theorem link_sq (hq : ∀ c ∈ cx.query, c ∈ allChars) (a : Atom) (s : Sq) (n n' : Nat) (hh : s.hatless = true) :
    Link cx (a.go cx.query n) (s.go cx.query n') (fun S => a.within S) s.empties where
  fwd := atom_fwd cx.query a n
  over S hS := atom_over hq a n hS
  total ht := sq_total cx.query s n' ht hh

theorem acts_hat {s : Sq} {cs : List Node} {n : Nat} (h : Acts ex cx true (dfs (runs cx cs) []) (s.go cx.query n) (fun S => s.slips S) s.mute s.count) (hf : s.feeds = true) :
    Acts ex cx false (run cx (.simple .bos cs) []) (fun i c => if true && i != 0 then none else s.go cx.query n i c) (fun S => s.slips S) s.mute s.count := by
  intro st st' i c hp hi _ hag e
  simp only [run, simpleMatch, bosMatch] at e
  have hq : cx.qend = (cx.query.length : Int) := rfl
  show OutG ex cx.query i st _ (if true && i != 0 then none else s.go cx.query n i c) _ _ _
  have fail : (if true && i != 0 then none else s.go cx.query n i c) = none → st' = { st with accepted := false } →
      OutG ex cx.query i st st' (if true && i != 0 then none else s.go cx.query n i c) (fun S => s.slips S) s.mute s.count := by
    intro h1 h2
    rw [h1, h2]
    exact ⟨fun w hw => (by cases hw), fun _ => rfl, fun _ S _ => ⟨0, hp, inClass_zero _ _ _⟩, fun _ _ => rfl, fun _ => rfl⟩
  by_cases hend : st.pos ≥ cx.qend
  · rw [if_pos hend] at e
    simp only [Bool.false_eq_true, if_false, Option.some.injEq] at e
    refine fail ?_ e.symm
    split
    · rfl
    · cases hg : s.go cx.query n i c with
      | none => rfl
      | some v =>
        have h1 := sq_feed cx.query s n (i, c) v hg hf hi
        have h2 := (sq_fwd cx.query s n (i, c) v hg hi).2
        simp only at h1
        omega
  · rw [if_neg hend] at e
    by_cases h0 : i = 0
    · subst h0
      have hp0 : st.pos = 0 := by simpa using hp
      simp only [hp0, decide_true, if_true] at e
      simp only [Bool.true_and, bne_self_eq_false, Bool.false_eq_true, if_false]
      have he : ({ st with accepted := true, pos := 0 } : St) = { st with accepted := true } := by rw [← hp0]
      cases e1 : dfs (runs cx cs) [] { st with accepted := true } with
      | none => simp only [hp0] at e1; rw [e1] at e; cases e
      | some st1 =>
        have o := h { st with accepted := true } st1 0 c hp hi (fun _ => rfl) hag e1
        simp only [hp0] at e1
        rw [e1] at e
        simp only at e
        split at e
        · cases e
          exact ⟨o.yes, o.no, o.slip, o.mute, o.calm⟩
        · rename_i hacc
          cases e
          refine ⟨fun w hw => absurd (o.yes w hw).1 hacc, fun _ => by simpa using hacc, fun _ S _ => ⟨0, rfl, inClass_zero _ _ _⟩, o.mute, o.calm⟩
    · have hp0 : ¬ st.pos = 0 := by omega
      simp only [hp0, decide_false, Bool.false_eq_true, if_false, Option.some.injEq] at e
      refine fail ?_ e.symm
      have : (i != 0) = true := by simpa using h0
      simp [this]

theorem acts_piece {hat : Bool} {s : Sq} {n : Nat} {m : Node} (hm : PieceFit hat (s.Fit true n) m) (hst : strict m = true) (hf : hat = true → s.feeds = true) (he : s.empty = false)
    (h : ∀ cs, s.Fit true n cs → stricts cs = true → Acts ex cx s.empty (dfs (runs cx cs) []) (s.go cx.query n) (fun S => s.slips S) s.mute s.count) :
    Acts ex cx false (run cx m []) (fun i c => if hat && i != 0 then none else s.go cx.query n i c) (fun S => s.slips S) s.mute s.count := by
  cases hat with
  | true =>
    obtain ⟨cs, _, h1, rfl⟩ := hm
    simp only [strict, Bool.true_and] at hst
    exact acts_hat (h cs h1 hst).up (hf rfl)
  | false =>
    have := h [m] hm (by simp [stricts, hst])
    rw [he] at this
    exact this.weaken (fun st => by simp only [runs, dfs]) (fun i c _ => by simp) (fun _ h => h) id id

/-- Where a repetition matches what follows does not, or it matches everywhere. -/
theorem part_sq (hq : ∀ c ∈ cx.query, c ∈ allChars) {a : Atom} {k : Quant} {s : Sq} {tot : Bool} {L : Int → Bool} (hc : (Sq.cons a k s).commits tot L = true) (hh : s.hatless = true)
    (hk : k.isOnce = false) (hf : k.fixed = false) (hm : k.mode = .greedy) (n n' : Nat) :
    (∀ w : Way, ∃ v, s.go cx.query n' w.1 w.2 = some v) ∨ ∀ i c v, i ≤ cx.query.length → a.go cx.query n i c = some v → s.go cx.query n' i (fun _ => none) = none := by
  cases he : s.empties with
  | true => exact .inl (sq_total cx.query s n' he hh)
  | false =>
    right
    intro i c v hi hgo
    have hcon : a.feeds = true ∧ meets a.heads (s.upcoming L) = false ∧ (∃ t L', a.commits t L' = true) ∧ s.commits tot L = true := by
      cases k with
      | once => cases hk
      | _ =>
        simp only [Sq.commits, Bool.and_eq_true, decides, hf, hm, he, Bool.and_false, Bool.false_or, Bool.not_eq_true'] at hc
        exact ⟨hc.1.1.1.1.1, hc.1.1.1.2, ⟨_, _, hc.1.1.2⟩, hc.2⟩
    obtain ⟨h1, h2, ⟨t, L', h3⟩, h4⟩ := hcon
    have hw := commit_atom hq a t L' h3 n i c hi
    rw [hgo] at hw
    have hv : v ∈ a.ways cx.query n i c := by
      simp only [Commit] at hw
      split at hw
      · exact List.mem_of_head? hw
      · obtain ⟨l1, l2, e, _⟩ := hw
        rw [e]; simp
    have hend := atom_ends cx.query a n i c hi v hv
    have hlt := atom_feed cx.query a n (i, c) v hgo h1 hi
    have hle := (atom_fwd cx.query a n (i, c) v hgo hi).2
    simp only at hlt
    cases hx : cx.query[i]? with
    | none => rw [List.getElem?_eq_none_iff] at hx; omega
    | some x =>
      have hax : a.heads x = true := by
        cases hax : a.heads x with
        | true => rfl
        | false =>
          have := (atom_stuck cx.query a n i c ⟨x, hx, hax⟩ v hv).2
          omega
      have hsx : s.heads x = false := by
        cases hsx : s.heads x with
        | false => rfl
        | true =>
          have : meets a.heads (s.upcoming L) = true := by
            simp only [meets, List.any_eq_true, Bool.and_eq_true]
            exact ⟨x, hq x (List.mem_of_getElem? hx), hax, by simp [Sq.upcoming, hsx]⟩
          rw [h2] at this; cases this
      have hst := sq_stuck cx.query s n' i (fun _ => none) ⟨x, hx, hsx⟩
      rw [he] at hst
      have hnil : s.ways cx.query n' i (fun _ => none) = [] := by
        cases hl : s.ways cx.query n' i (fun _ => none) with
        | nil => rfl
        | cons w l => have := (hst w (by rw [hl]; simp)).1; cases this
      have hcs := commit_sq hq s tot L h4 hh n' i (fun _ => none) hi
      rw [hnil] at hcs
      cases hg : s.go cx.query n' i (fun _ => none) with
      | none => rfl
      | some u =>
        rw [hg] at hcs
        simp only [Commit] at hcs
        split at hcs
        · cases hcs
        · obtain ⟨l1, l2, e, _⟩ := hcs
          cases l1 <;> cases e

theorem sq_commits {a : Atom} {k : Quant} {s : Sq} (h : ∃ tot L, (Sq.cons a k s).commits tot L = true) : (∃ tot L, a.commits tot L = true) ∧ ∃ tot L, s.commits tot L = true := by
  obtain ⟨tot, L, h⟩ := h
  cases k with
  | once => simp only [Sq.commits, Bool.and_eq_true] at h; exact ⟨⟨_, _, h.1⟩, ⟨_, _, h.2⟩⟩
  | _ => simp only [Sq.commits, Bool.and_eq_true] at h; exact ⟨⟨_, _, h.1.1.2⟩, ⟨_, _, h.2⟩⟩

mutual
theorem atom_acts (hlen : cx.query.length < umax) (hq : ∀ c ∈ cx.query, c ∈ allChars) : ∀ (a : Atom) (n : Nat) (m : Node), a.Fit true n m → strict m = true → a.plainly = true →
    (∃ tot L, a.commits tot L = true) → (a.dollars = true → cx.post.head? = some 0) → ∀ ex, Acts ex cx false (run cx m []) (a.go cx.query n) (fun S => a.slips S) a.mute a.count
  | .group true as, n, m, hF, hst, hp, hcm, hn => by
    intro ex
    have hcm' : ∃ tot L, as.commits tot L = true := by
      obtain ⟨tot, L, h⟩ := hcm; simp only [Atom.commits, Bool.and_eq_true] at h; exact ⟨_, _, h.2⟩
    have hst : strict _ = true := atom_strict _ _ _ hF
    obtain ⟨x, ms, rfl, h1, h2⟩ := hF
    simp only [Atom.plainly, Bool.and_eq_true] at hp
    simp only [strict, stricts, Bool.and_true, lend_nil, Bool.or_false] at hst
    have hms : stricts ms = true := by
      rcases h2 with rfl | rfl
      · simpa [strict] using hst
      · simpa [stricts] using hst
    have := acts_cap (j := n) (row_acts hlen hq as (n + 1) ms h1 hms hp.2 hcm' hn ex)
    refine this.weaken (fun st => ?_) (fun i c _ => by simp only [Atom.go, if_true]) (fun _ h => h) id (fun h => by simp [Atom.count] at h)
    rw [group_cap x n hst, run_joined h2]
  | .group false as, n, m, hF, hst, hp, hcm, hn => by
    intro ex
    have hcm' : ∃ tot L, as.commits tot L = true := by
      obtain ⟨tot, L, h⟩ := hcm; simp only [Atom.commits, Bool.and_eq_true] at h; exact ⟨_, _, h.2⟩
    obtain ⟨x, ms, hm, h1, h2⟩ := hF
    simp only [Atom.plainly, Bool.and_eq_true] at hp
    have hx : strict x = true := by
      rcases hm with rfl | rfl
      · exact hst
      · simpa [strict, stricts] using hst
    have hms : stricts ms = true := by
      rcases h2 with rfl | rfl
      · simpa [strict] using hx
      · simpa [stricts] using hx
    have := row_acts hlen hq as n ms h1 hms hp.2 hcm' hn ex
    refine this.weaken (fun st => ?_) (fun i c _ => by simp [Atom.go]) (fun _ h => h) id (fun h => by simpa [Atom.count] using h)
    rw [← run_joined h2]
    rcases hm with rfl | rfl
    · rfl
    · exact run_simple_nil _ _
  | .chr x, n, m, hF, hst, hp, _, hn => fun ex => acts_char (by simp) hF n
  | .esc x, n, m, hF, hst, hp, _, hn => fun ex => acts_char (by simp) hF n
  | .dot, n, m, hF, hst, hp, _, hn => fun ex => acts_char (by simp) hF n
  | .hex x y, n, m, hF, hst, hp, _, hn => fun ex => acts_char (by simp) hF n
  | .oct x y z, n, m, hF, hst, hp, _, hn => fun ex => acts_char (by simp) hF n
  | .cls neg items dash, n, m, hF, hst, hp, _, hn => fun ex => acts_char (by simp) hF n
theorem sq_acts (hlen : cx.query.length < umax) (hq : ∀ c ∈ cx.query, c ∈ allChars) : ∀ (s : Sq) (n : Nat) (cs : List Node), s.Fit true n cs → stricts cs = true → s.plainly = true →
    s.hatless = true → (∃ tot L, s.commits tot L = true) → (s.dollars = true → cx.post.head? = some 0) → ∀ ex, Acts ex cx s.empty (dfs (runs cx cs) []) (s.go cx.query n) (fun S => s.slips S) s.mute s.count
  | .nil false, n, cs, hF, hst, hp, hh, hcm, hn => by
    intro ex
    have hF : cs = [] := hF
    subst hF
    exact acts_nil
  | .nil true, n, cs, hF, hst, hp, hh, hcm, hn => by
    intro ex
    have := hn rfl
    rcases hF with rfl | rfl
    · exact acts_dollar this (fun st => by simp only [runs, dfs]; rw [run_simple_nil]; simp only [run])
    · exact acts_dollar this (fun st => by simp only [runs, dfs, run])
  | .cons a k s, n, cs, hF, hst, hp, hh, hcm, hn => by
    intro ex
    rcases hF with ⟨m, ds, nd, rfl, h1, h2, h3⟩ | ⟨_, hk, hle, m, lo, hi, ds, rfl, h1, h2⟩
    case inr =>
      have hk : k = .once := by cases k <;> first | rfl | cases hk
      subst hk
      obtain ⟨⟨b, k, rfl, hb, hm, ho, hx, rfl, rfl, hsl⟩, _, hlax, hse, _⟩ := lends_shape hle h1
      obtain ⟨_, hcs⟩ := sq_commits hcm
      have hstd : stricts ds = true := sq_strict _ _ _ h2
      have hstb : strict m = true := atom_strict _ _ _ hb
      have hcb : ∃ tot L, (Sq.cons b k s).commits tot L = true := by
        obtain ⟨tot, L, hcm⟩ := hcm
        refine ⟨tot, L, ?_⟩
        simp only [Sq.commits, Atom.commits, Alts.commits, Bool.and_eq_true] at hcm
        cases k with
        | once => cases ho
        | _ =>
          simp only [Sq.commits, Bool.and_eq_true] at hcm ⊢
          refine ⟨?_, hcm.2⟩
          have := hcm.1.2.2.1
          rw [show (Sq.nil false).upcoming (s.upcoming L) = s.upcoming L by funext x; simp [Sq.upcoming, Sq.heads, Sq.empties]] at this
          simpa [Sq.empties] using this
      simp only [Sq.plainly, Atom.plainly, Alts.plainly, Bool.and_eq_true, Bool.or_eq_true] at hp
      obtain ⟨⟨⟨⟨⟨_, ⟨_, ⟨⟨⟨hpb, hpk⟩, hpf⟩, hpm⟩, _⟩⟩, _⟩, _⟩, _⟩, hps⟩ := hp
      simp only [Sq.hatless, Bool.and_eq_true] at hh
      simp only [Sq.dollars, Atom.dollars, Alts.dollars, Bool.or_eq_true] at hn
      have hfeed : b.feeds = true := by
        rcases hpf with h | h
        · rw [ho] at h; cases h
        · exact h
      have hmu : b.mute = true := by
        rcases hpm with h | h
        · rw [hx] at h; cases h
        · exact h
      obtain ⟨d, rfl⟩ : ∃ d, ds = [d] := by
        rcases fit_len s _ _ h2 with ⟨e, _⟩ | ⟨c, e⟩
        · have := not_empty h2 hse; rw [e] at this; cases this
        · exact ⟨c, e⟩
      have hbnd := sane_bounds hpk
      have hhi : k.hi = some k.hiN ∨ k.hi = none ∧ k.hiN = umax := by
        unfold Quant.hiN
        cases k.hi with
        | none => exact .inr ⟨rfl, rfl⟩
        | some h => exact .inl rfl
      have hpath : optPath m k.lo k.hiN = false := by
        cases e : optPath m k.lo k.hiN with
        | false => rfl
        | true =>
          obtain ⟨e1, e2, _⟩ := (optPath_iff _ _ _).1 e
          rw [e1, e2] at hlax; cases hlax
      have hactb := atom_acts hlen hq b (n + 1) m hb hstb hpb (sq_commits hcb).1 (fun h => hn (.inl (.inl h)))
      have hacts := sq_acts hlen hq s _ [d] h2 hstd hps hh.2 hcs (fun h => hn (.inr h))
      rw [hse] at hacts
      have hlb := link_sq hq b s (n + 1) (n + (Atom.group true (.last false (.cons b k (.nil false)))).count) hh.2
      have hla := link_sq hq (Atom.group true (.last false (.cons b k (.nil false)))) s n (n + (Atom.group true (.last false (.cons b k (.nil false)))).count) hh.2
      have hgo : ∀ i c, (Atom.group true (.last false (.cons b k (.nil false)))).go cx.query n i c =
          ((k.go cx.query.length (b.go cx.query (n + 1)) (i, c)).bind (fun w => some (w.1, w.2))).map (fun w => (w.1, w.2.with n i w.1)) := by
        intro i c
        simp only [Atom.go, Alts.go, Sq.go, if_true, Bool.false_and, Bool.false_eq_true, if_false]
        rfl
      obtain ⟨tot, L, hcb⟩ := hcb
      have key := acts_run hlen hactb hacts hlb (sq_same cx.query s _ _) (sq_paints cx.query s _) (fun w v e h => atom_feed cx.query b (n + 1) w v e hfeed h) k hhi hbnd.1 hbnd.2 hmu hsl
        (part_sq hq hcb hh.2 ho hx hm (n + 1) _) (j := n)
        ⟨fun w v e => hla.fwd w v (by rw [hgo]; exact e), fun S hS w v e => hla.over S (by simp [Atom.within, Alts.within, Sq.within, hS]) w v (by rw [hgo]; exact e), hlb.total⟩ ex
      refine key.weaken (fun st => ?_) (fun i c _ => ?_) (fun S hS => ?_) (fun h => ?_) (fun h => ?_)
      · simp only [runs, dfs]
        rw [group_run d hpath (by simpa [stricts] using hstd)]
      · simp only [Sq.go, go_once, hgo]
      · simp only [Sq.slips, Atom.slips, Alts.slips, Atom.within, Alts.within, Sq.within, Quant.lo, Quant.isOnce, Atom.isCap, Bool.and_eq_true, Bool.or_eq_true] at hS ⊢
        simp_all
      · simp only [Sq.mute, Atom.mute, Alts.mute, Atom.count, Alts.count, Sq.count, Sq.empties] at h ⊢
        simp_all
      · simp [Sq.count, Atom.count, Alts.count] at h
    obtain ⟨hca, hcs⟩ := sq_commits hcm
    simp only [Sq.plainly, Bool.and_eq_true, Bool.or_eq_true] at hp
    simp only [Sq.hatless, Bool.and_eq_true] at hh
    simp only [Sq.dollars, Bool.or_eq_true] at hn
    simp only [stricts, Bool.and_true] at hst
    obtain ⟨⟨⟨⟨hp1, hp2⟩, hp3⟩, hp4⟩, hp5⟩ := hp
    have hl := link_sq hq a s n (n + a.count) hh.2
    have hcnt : (Sq.cons a k s).count = a.count + s.count := rfl
    have mute_ok : (Sq.cons a k s).mute = true → k.lo ≤ 1 → ((a.count == 0 && s.mute) || (a.mute && s.empties)) = true := by
      intro h _
      simp only [Sq.mute, Bool.and_eq_true, Bool.or_eq_true] at h ⊢
      rcases h.1 with h1 | h1
      · exact .inl ⟨h1, h.2⟩
      · exact .inr ⟨h1.1.1, h1.2⟩
    have hempty : (Sq.cons a k s).empty = false := rfl
    rw [hempty]
    unfold Hangs at h3
    split at h3
    · rename_i hk
      have hk : k = .once := by cases k <;> first | rfl | cases hk
      subst hk
      have hgo : ∀ i c, (Sq.cons a .once s).go cx.query n i c = (a.go cx.query n i c).bind (fun w => s.go cx.query (n + a.count) w.1 w.2) := by
        intro i c; simp only [Sq.go, go_once]
      rcases h3 with ⟨rfl, rfl⟩ | ⟨hc, rfl⟩ | ⟨hc, x, j, rfl, rfl⟩
      · have hs : s = .nil false := by
          rcases fit_len s _ _ h2 with ⟨_, h⟩ | ⟨c, h⟩
          · exact h
          · cases h
        subst hs
        have ha := atom_acts hlen hq a n nd h1 hst hp1 hca (fun h => hn (.inl h))
        have hacts := acts_seq (ha ex) (acts_nil (n := n + a.count)) hl
        refine hacts.weaken (fun st => ?_) (fun i c _ => hgo i c) (fun S hS => ?_) (fun h => mute_ok h (Nat.le_refl _)) (fun h => by rw [← hcnt]; exact h)
        · simp only [runs, dfs, seqK]
          cases run cx nd [] st with
          | none => rfl
          | some st1 => simp only; cases st1.accepted <;> rfl
        · simp only [Sq.slips, Quant.lo, Quant.isOnce, Bool.and_eq_true, Bool.or_eq_true] at hS
          simp only [Bool.and_eq_true, Bool.or_eq_true]
          rcases hS.1 with h | h
          · cases h
          · exact ⟨h.1, .inl rfl⟩
      · simp only [strict, Bool.and_eq_true] at hst
        have ha := atom_acts hlen hq a n m h1 hst.1 hp1 hca (fun h => hn (.inl h))
        have hs := sq_acts hlen hq s _ ds h2 hst.2 hp5 hh.2 hcs (fun h => hn (.inr h))
        refine (acts_seqR (ha ex) (hs ex).up hl).weaken (fun st => ?_) (fun i c _ => hgo i c) (fun S hS => ?_) (fun h => mute_ok h (Nat.le_refl _)) (fun h => by rw [← hcnt]; exact h)
        · simp only [runs, dfs, run, simpleMatch, seqR]
          rfl
        · simp only [Sq.slips, Quant.lo, Quant.isOnce, Bool.and_eq_true, Bool.or_eq_true] at hS
          rcases hS.1 with h | h
          · cases h
          · exact h.1
      · simp only [strict, Bool.and_eq_true] at hst
        have hm := atom_strict _ _ _ h1
        have hx : strict x = true := by simpa only [strict, stricts, Bool.and_true, lend_nil, Bool.or_false] using hm
        have ha := atom_acts hlen hq a n _ h1 hm hp1 hca (fun h => hn (.inl h))
        have hs := sq_acts hlen hq s _ ds h2 hst.2 hp5 hh.2 hcs (fun h => hn (.inr h))
        refine (acts_seq (ha ex) (hs ex).up hl).weaken (fun st => ?_) (fun i c _ => hgo i c) (fun S hS => ?_) (fun h => mute_ok h (Nat.le_refl _)) (fun h => by rw [← hcnt]; exact h)
        · simp only [runs, dfs]
          rw [group_seq x j ds hx hst.2]
          simp only [seqK, group_cap x j hx]
        · simp only [Sq.slips, Quant.lo, Quant.isOnce, hc, Bool.and_eq_true, Bool.or_eq_true] at hS
          simp only [Bool.and_eq_true, Bool.or_eq_true]
          rcases hS.1 with h | h
          · cases h
          · refine ⟨h.1, ?_⟩
            rcases hS.2 with (h | h) | h
            · exact .inl h
            · simp at h
            · exact .inr h
    · rename_i hk
      have hfeed : a.feeds = true := by
        rcases hp3 with h | h
        · exact absurd h hk
        · exact h
      have hfd : ∀ w v : Way, a.go cx.query n w.1 w.2 = some v → w.1 ≤ cx.query.length → w.1 < v.1 := fun w v e h => atom_feed cx.query a n w v e hfeed h
      have hb := sane_bounds hp2
      have slip_ok : ∀ S, (Sq.cons a k s).slips S = true → ((k.lo == 0 || (a.slips S && (k.lo == 1 || a.within S))) && (s.empties || (s.slips S && a.within S))) = true := by
        intro S hS
        simp only [Sq.slips, Bool.and_eq_true, Bool.or_eq_true] at hS ⊢
        refine ⟨hS.1, ?_⟩
        rcases hS.2 with (h | h) | h
        · exact .inl h
        · exact absurd h.1 hk
        · exact .inr h
      have mute_ok' : (Sq.cons a k s).mute = true → ((a.count == 0 && s.mute) || (a.mute && decide (k.lo ≤ 1) && s.empties)) = true := by
        intro h
        simp only [Sq.mute, Bool.and_eq_true, Bool.or_eq_true] at h ⊢
        rcases h.1 with h1 | h1
        · exact .inl ⟨h1, h.2⟩
        · exact .inr h1
      have hhi : k.hi = some k.hiN ∨ k.hi = none ∧ k.hiN = umax := by
        unfold Quant.hiN
        cases k.hi with
        | none => exact .inr ⟨rfl, rfl⟩
        | some h => exact .inl rfl
      split at h3
      · rename_i hfix
        subst h3
        simp only [strict, Bool.and_eq_true] at hst
        have ha := atom_acts hlen hq a n m h1 hst.1 hp1 hca (fun h => hn (.inl h))
        have hs := sq_acts hlen hq s _ ds h2 hst.2 hp5 hh.2 hcs (fun h => hn (.inr h))
        have hlo : k.hiN = k.lo := by cases k <;> first | rfl | cases hfix
        have hacts := acts_loop hlen (ha ex) (hs ex).up hl hfd k hhi hb.1 hb.2 (.inl hlo.symm)
        refine hacts.weaken (fun st => ?_) (fun i c _ => by simp only [Sq.go]) slip_ok mute_ok' (fun h => by rw [← hcnt]; exact h)
        rw [hlo, rep_loop]
        simp only [runs, dfs, run, repeatedMatch]
        rfl
      · rename_i hfix
        have hmu : a.mute = true := by
          rcases hp4 with h | h
          · exact absurd h hfix
          · exact h
        rcases h3 with ⟨hm, hso, rfl⟩ | ⟨hso, _⟩ | rfl
        · simp only [strict, Bool.and_eq_true] at hst
          obtain ⟨⟨hne, hlax⟩, hst⟩ := hst
          have ha := atom_acts hlen hq a n m h1 hst.1 hp1 hca (fun h => hn (.inl h))
          have hs := sq_acts hlen hq s _ ds h2 hst.2 hp5 hh.2 hcs (fun h => hn (.inr h))
          have hse : s.empty = false := by
            rcases fit_len s _ _ h2 with ⟨h, _⟩ | ⟨c, hc⟩
            · subst h; cases hne
            · cases s with
              | nil d =>
                cases d with
                | true => rfl
                | false => have h2 : ds = [] := h2; subst h2; cases hne
              | cons => rfl
          rw [hse] at hs
          have hkk : k.isOnce = false := by simpa using hk
          have hff : k.fixed = false := by simpa using hfix
          have hb2 := hso rfl
          simp only [soft, Bool.and_eq_true] at hb2
          obtain ⟨tot, L, hcm⟩ := hcm
          have hacts := acts_grow hlen ha hs hl hfd k hhi hb.1 hb.2 hmu hb2.1.2 hb2.2 (part_sq hq hcm hh.2 hkk hff hm n (n + a.count)) ex
          refine hacts.weaken (fun st => ?_) (fun i c _ => by simp only [Sq.go]) slip_ok mute_ok' (fun h => by rw [← hcnt]; exact h)
          have hpath : optPath m k.lo k.hiN = false := by
            cases e : optPath m k.lo k.hiN with
            | false => rfl
            | true =>
              obtain ⟨e1, e2, _⟩ := (optPath_iff _ _ _).1 e
              rw [e1, e2] at hlax; cases hlax
          simp only [runs, dfs]
          rw [run_greedy_loop cx ds hpath, greedy_is]
          have : greedyBacktrack (runs cx ds) [] = dfs (runs cx ds) [] := by
            funext st
            cases ds with
            | nil => cases hne
            | cons d ds => simp [greedyBacktrack, runs]
          rw [this]
        · cases hso
        · simp only [strict, Bool.and_eq_true] at hst
          have ha := atom_acts hlen hq a n m h1 hst.1 hp1 hca (fun h => hn (.inl h))
          have hs := sq_acts hlen hq s _ ds h2 hst.2 hp5 hh.2 hcs (fun h => hn (.inr h))
          have hacts := acts_loop hlen (ha ex) (hs ex).up hl hfd k hhi hb.1 hb.2 (.inr hmu)
          refine hacts.weaken (fun st => ?_) (fun i c _ => by simp only [Sq.go]) slip_ok mute_ok' (fun h => by rw [← hcnt]; exact h)
          simp only [runs, dfs, run, possessiveMatch, loopK]
          rfl
theorem row_acts (hlen : cx.query.length < umax) (hq : ∀ c ∈ cx.query, c ∈ allChars) : ∀ (as : Alts) (n : Nat) (ms : List Node), as.Row true n ms → stricts ms = true → as.plainly = true →
    (∃ tot L, as.commits tot L = true) → (as.dollars = true → cx.post.head? = some 0) → ∀ ex, Acts ex cx false (dfs (runs cx ms) []) (as.go cx.query n) (fun S => as.slips S) as.mute as.count
  | .last hat s, n, ms, hF, hst, hp, hcm, hn => by
    intro ex
    obtain ⟨m, rfl, h1⟩ := hF
    have hcm' : ∃ tot L, s.commits tot L = true := by
      obtain ⟨tot, L, h⟩ := hcm; simp only [Alts.commits, Bool.and_eq_true] at h; exact ⟨_, _, h.2⟩
    simp only [Alts.plainly, Bool.and_eq_true, Bool.or_eq_true, Bool.not_eq_true'] at hp
    simp only [stricts, Bool.and_true] at hst
    have := acts_piece h1 hst (fun h => by rcases hp.1.1.1 with h' | h'; (rw [h] at h'; cases h'); exact h') hp.1.1.2
      (fun cs hcs hcst => sq_acts hlen hq s n cs hcs hcst hp.2 hp.1.2 hcm' hn ex)
    exact this.weaken (fun st => by simp only [runs, dfs]) (fun i c _ => by simp only [Alts.go]) (fun _ h => h) id id
  | .more hat s as, n, ms, hF, hst, hp, hcm, hn => by
    intro ex
    obtain ⟨m, ms', rfl, h1, h2⟩ := hF
    have hcm' : (∃ tot L, s.commits tot L = true) ∧ ∃ tot L, as.commits tot L = true := by
      obtain ⟨tot, L, h⟩ := hcm; simp only [Alts.commits, Bool.and_eq_true] at h; exact ⟨⟨_, _, h.1.1.2⟩, ⟨_, _, h.1.2⟩⟩
    simp only [Alts.plainly, Bool.and_eq_true, Bool.or_eq_true, Bool.not_eq_true'] at hp
    simp only [stricts, Bool.and_eq_true] at hst
    simp only [Alts.dollars, Bool.or_eq_true] at hn
    obtain ⟨⟨⟨⟨⟨⟨hp1, hp2⟩, hp3⟩, hp4⟩, hp5⟩, hp6⟩, hp7⟩ := hp
    have a1 := acts_piece h1 hst.1 (fun h => by rcases hp1 with h' | h'; (rw [h] at h'; cases h'); exact h') hp2
      (fun cs hcs hcst => sq_acts hlen hq s n cs hcs hcst hp4 hp3 hcm'.1 (fun h => hn (.inl h)) ex)
    have a2 := row_acts hlen hq as (n + s.count) ms' h2 hst.2 hp7 hcm'.2 (fun h => hn (.inr h)) ex
    have hcnt : (Alts.more hat s as).count = s.count + as.count := rfl
    intro st st' i c hpos hi _ hag e
    have hrun : ∃ m2 ms2, ms' = m2 :: ms2 := by
      cases ms' with
      | nil => exact absurd rfl (row_ne _ _ _ h2)
      | cons m2 ms2 => exact ⟨_, _, rfl⟩
    obtain ⟨m2, ms2, rfl⟩ := hrun
    simp only [runs, dfs] at e
    have a2 : Acts ex cx false (dfs (run cx m2 :: runs cx ms2) []) (as.go cx.query (n + s.count)) (fun S => as.slips S) as.mute as.count := by
      simpa only [runs] using a2
    cases e1 : run cx m [] st with
    | none => rw [e1] at e; cases e
    | some st1 =>
      rw [e1] at e
      simp only at e
      have o1 := a1 st st1 i c hpos hi (by simp) hag e1
      simp only [Alts.go]
      rw [hcnt]
      cases hg : (if hat && i != 0 then none else s.go cx.query n i c) with
      | some w =>
        obtain ⟨x1, x2, x3⟩ := o1.yes w hg
        simp only [x1, if_true, Option.some.injEq] at e
        subst e
        exact ⟨fun v hv => by cases hv; exact ⟨x1, x2, x3⟩, fun h => (by cases h), fun h => (by cases h), fun h => (by cases h), fun h => o1.calm (by omega)⟩
      | none =>
        have hacc := o1.no hg
        obtain ⟨d, hd1, hd2⟩ := o1.slip hg _ hp5
        have := inClass_stop hd2
        subst this
        have hgr := o1.mute hg hp6
        simp only [hacc, Bool.false_eq_true, if_false] at e
        have o2 := a2 { st1 with accepted := true } st' i c hd1 hi (by simp) (by simpa only [hgr] using hag) e
        refine ⟨o2.yes, o2.no, fun hno S hS => o2.slip hno S ?_, fun hno hmu => ?_, fun h => ?_⟩
        · simp only [Alts.slips, Bool.and_eq_true] at hS; exact hS.2
        · simp only [Alts.mute, Bool.and_eq_true] at hmu
          rw [o2.mute hno hmu.2]; exact hgr
        · rw [o2.calm (by omega)]; exact hgr
end

end

end ERegex

import Verif.Proofs.PreferRun
import Verif.Proofs.Leftmost
/-!
# The preferred match: searching with a regular pattern
-/
set_option autoImplicit false
namespace ERegex
open ERegex.Spec ERegex.Props

theorem eats_picks (q : List Int) : ∀ (s : Sq) (i : Nat), s.eats = true → s.picks q i ≠ [] → i < q.length
  | .nil _, _, h, _ => by simp [Sq.eats] at h
  | .cons a k s, i, h, hp => by
    have : ∃ n, n ∈ k.counts (runLen a.set (q.drop i)) ∧ s.picks q (i + n) ≠ [] := by
      simp only [Sq.picks, ne_eq, List.flatMap_eq_nil_iff] at hp
      simpa using hp
    obtain ⟨n, hn, hs⟩ := this
    obtain ⟨h1, h2⟩ := counts_sub k _ n hn
    cases n with
    | zero =>
      have h0 : k.lo = 0 := by have := h1.1; omega
      simp only [Sq.eats, h0, bne_self_eq_false, Bool.false_or] at h
      have := eats_picks q s _ h hs
      omega
    | succ n =>
      obtain ⟨c, hc, _⟩ := (inClass_runLen q a.set i (n + 1)).2 h2 0 (by omega)
      have := List.getElem?_eq_some_iff.1 hc
      obtain ⟨hlt, _⟩ := this
      omega

theorem runLen_shift {q : List Int} {S : Int → Bool} {i d : Nat} (h : InClass q S i d) :
    runLen S (q.drop i) = d + runLen S (q.drop (i + d)) := by
  apply Nat.le_antisymm
  · have h1 : d ≤ runLen S (q.drop i) := (inClass_runLen ..).1 h
    have h2 : InClass q S i (d + (runLen S (q.drop i) - d)) := by
      rw [inClass_runLen]; omega
    rw [inClass_add, inClass_runLen, inClass_runLen] at h2
    omega
  · rw [← inClass_runLen, inClass_add]
    exact ⟨h, (inClass_runLen ..).2 (Nat.le_refl _)⟩

/-- A match behind some characters of the loop at the head: there is one that begins before them. -/
theorem loopHead_shift {q : List Int} {a : Atom} {k : Quant} {s : Sq} (hl : (Sq.cons a k s).loopHead = true) {i d : Nat}
    (h : InClass q a.set i d) (hp : (Sq.cons a k s).picks q (i + d) ≠ []) : (Sq.cons a k s).picks q i ≠ [] := by
  have : ∃ n, n ∈ k.counts (runLen a.set (q.drop (i + d))) ∧ s.picks q (i + d + n) ≠ [] := by
    simp only [Sq.picks, ne_eq, List.flatMap_eq_nil_iff] at hp
    simpa using hp
  obtain ⟨n, hn, hs⟩ := this
  have he := runLen_shift h
  obtain ⟨h1, h2⟩ := counts_sub k _ n hn
  have key : ∃ n', n' ∈ k.counts (runLen a.set (q.drop i)) ∧ s.picks q (i + n') ≠ [] := by
    simp only [Sq.loopHead, Bool.and_eq_true, Bool.or_eq_true, beq_iff_eq] at hl
    rcases hl.2 with hb | ⟨hn0, -⟩
    · have hlt : k.lo ≤ k.top (runLen a.set (q.drop i)) := (le_top ..).2 ⟨fun h hh => Nat.le_trans h1.1 (h1.2 h hh), by have := h1.1; omega⟩
      have ht := (le_top k (k.top (runLen a.set (q.drop i))) _).1 (Nat.le_refl _)
      refine ⟨k.top (runLen a.set (q.drop i)), ?_, nullable_picks q s hb _⟩
      by_cases hm : k.mode = .possessive
      · unfold Quant.counts; rw [hm]; simp only [hlt, if_true, List.mem_singleton]
      · exact (mem_greedy k _ _ hm).2 ⟨⟨hlt, ht.1⟩, ht.2⟩
    · refine ⟨d + n, ?_, by rwa [← Nat.add_assoc]⟩
      by_cases hm : k.mode = .possessive
      · unfold Quant.counts Quant.top at hn ⊢
        rw [hm, hn0] at hn ⊢
        simp only at hn ⊢
        split at hn
        · simp only [List.mem_singleton] at hn
          rw [if_pos (by omega)]
          simp only [List.mem_singleton]; omega
        · simp at hn
      · exact (mem_greedy k _ _ hm).2 ⟨⟨by have := h1.1; omega, by rw [hn0]; simp⟩, by omega⟩
  obtain ⟨n', h3, h4⟩ := key
  intro hc
  simp only [Sq.picks, List.flatMap_eq_nil_iff] at hc
  exact h4 (hc n' h3)

/-- What a tree does, at every offset. -/
def DoesT (cx : Ctx) (P : Par) (f : Nat → List Nat) (t : Node) : Prop := ∀ (st : St) (i : Nat), Good cx P st → st.pos = i →
  ∃ st', run cx t [] st = some st' ∧ Agrees (f i) st'

/-- The ends of the alternatives, best first. -/
def picksOf (q : List Int) : List (Bool × Sq) → Nat → List Nat
  | [], _ => []
  | x :: xs, i => hatPicks q x.1 x.2 i ++ picksOf q xs i

theorem picksOf_bodies (q : List Int) : ∀ (as : Alts) (i : Nat), picksOf q as.bodies i = as.picks q i
  | .last .., i => by simp [Alts.bodies, picksOf, Alts.picks]
  | .more hat s as, i => by simp [Alts.bodies, picksOf, Alts.picks, picksOf_bodies q as i]

section
variable {cx : Ctx} {P : Par}

theorem top_does {f : Bool} {x : Bool × Sq} {t : Node} (h : Top f x t) (hk : Known f x.2) (hr : x.2.regular = true) (he : x.1 = true → x.2.eats = true)
    (hlen : cx.query.length < umax) (hq : ∀ c ∈ cx.query, c ∈ allChars) (hn : x.2.dollar = true → cx.post.head? = some 0)
    (hC : ∀ i a b, P.C i a b) : DoesT cx P (hatPicks cx.query x.1 x.2) t := by
  cases h with
  | plain hf =>
    intro st i hg hi
    obtain ⟨st', e, ha⟩ := fits_does hf hk hr hlen hq hn hC st i hg hi (Or.inr (by simp))
    rw [run_alt_one] at e
    exact ⟨st', e, by simpa [hatPicks] using ha⟩
  | @hat s cs hf hne =>
    intro st i hg hi
    have hd := fits_does hf hk hr hlen hq hn hC
    have hb := hg.pos
    rw [hi] at hb
    simp only [run, simpleMatch, bosMatch]
    by_cases hp : st.pos ≥ cx.qend
    · rw [if_pos hp]
      simp only [Bool.false_eq_true, if_false]
      refine ⟨_, rfl, ?_⟩
      have : s.picks cx.query i = [] := by
        cases hpk : s.picks cx.query i with
        | nil => rfl
        | cons x l =>
          have := eats_picks cx.query s i (he rfl) (by rw [hpk]; simp)
          rw [hi] at hp; unfold Ctx.qend at hp; omega
      simp [hatPicks, this, Agrees]
    · rw [if_neg hp]
      by_cases h0 : st.pos = 0
      · have hi0 : i = 0 := by omega
        simp only [h0, decide_true, if_true]
        obtain ⟨r, e, hr'⟩ := hd { st with accepted := true } i (hg.flag true) hi (Or.inl rfl)
        have e' : dfs (runs cx cs) [] { start := st.start, pos := 0, groups := st.groups, accepted := true } = some r := by
          rw [← h0]; simpa only [run] using e
        rw [e']
        simp only
        have hpe : hatPicks cx.query true s i = s.picks cx.query i := by simp [hatPicks, hi0]
        rw [hpe]
        split
        · exact ⟨_, rfl, hr'⟩
        · rename_i hna
          refine ⟨_, rfl, ?_⟩
          cases hpk : s.picks cx.query i with
          | nil => simpa [Agrees] using hna
          | cons x l => rw [hpk] at hr'; exact absurd hr'.1 hna
      · simp only [h0, decide_false, Bool.false_eq_true, if_false]
        refine ⟨_, rfl, ?_⟩
        have : i ≠ 0 := by rintro rfl; exact h0 (by simpa using hi)
        simp [hatPicks, this, Agrees]

theorem top_clean {f : Bool} {x : Bool × Sq} {t : Node} (h : Top f x t) (ha : (x.1 || x.2.steadyHead) = true) : clean t = true := by
  cases h with
  | hat hf hne => simp [clean]
  | plain hf =>
    simp only [Bool.false_or] at ha
    have : ∀ s : Sq, s.steadyHead = true → s.firm = true := by
      intro s h
      match s with
      | .nil _ => simp [Sq.steadyHead] at h
      | .cons a .once s => simpa [Sq.firm, Sq.steadyHead] using h
      | .cons a (.star _) s | .cons a (.plus _) s | .cons a (.opt _) s | .cons a (.exact ..) s | .cons a (.atLeast ..) s
      | .cons a (.between ..) s => simp [Sq.steadyHead] at h
    have := (fits_firm hf (this _ ha)).2.1
    simpa [cleans] using this

theorem top_safe {f : Bool} {x : Bool × Sq} {t : Node} (h : Top f x t) (nul : Bool) (hn : x.2.dollar = true → nul = true) :
    safe nul t = true ∧ slots t = [] := by
  cases h with
  | hat hf hne => have := fits_safe hf nul hn; simp [safe, slots, this]
  | plain hf => have := fits_safe hf nul hn; simpa [safes, slotss] using this

theorem tops_safe {f : Bool} {xs : List (Bool × Sq)} {ts : List Node} (h : Tops f xs ts) (nul : Bool) (hn : ∀ x ∈ xs, x.2.dollar = true → nul = true) :
    safes nul ts = true ∧ slotss ts = [] := by
  induction h with
  | nil => simp [safes, slotss]
  | cons h1 h2 ih =>
    have a := top_safe h1 nul (hn _ (by simp))
    have b := ih (fun x hx => hn x (by simp [hx]))
    simp [safes, slotss, a, b]

theorem whole_safe {f : Bool} {xs : List (Bool × Sq)} {t : Node} (h : Whole f xs t) (nul : Bool) (hn : ∀ x ∈ xs, x.2.dollar = true → nul = true) :
    safe nul t = true ∧ slots t = [] := by
  cases h with
  | alt h => simpa [safe, slots] using tops_safe h nul hn
  | one h => exact top_safe h nul (hn _ (by simp))

theorem tops_clean {f : Bool} {xs : List (Bool × Sq)} {ts : List Node} (h : Tops f xs ts) (ha : ∀ x ∈ xs, altOk x.1 x.2 = true) : cleans ts = true := by
  induction h with
  | nil => rfl
  | cons h1 h2 ih =>
    have h3 := ha _ (List.mem_cons_self ..)
    simp only [altOk, Bool.and_eq_true] at h3
    simp only [cleans, Bool.and_eq_true]
    exact ⟨top_clean h1 h3.2, ih (fun x hx => ha x (by simp [hx]))⟩

theorem tops_does {f : Bool} {xs : List (Bool × Sq)} {ts : List Node} (h : Tops f xs ts) (hk : ∀ x ∈ xs, Known f x.2) (ha : ∀ x ∈ xs, altOk x.1 x.2 = true)
    (hlen : cx.query.length < umax) (hq : ∀ c ∈ cx.query, c ∈ allChars) (hn : ∀ x ∈ xs, x.2.dollar = true → cx.post.head? = some 0)
    (hC : ∀ i a b, P.C i a b) : ts ≠ [] → DoesT cx P (picksOf cx.query xs) (.alt ts) := by
  induction h with
  | nil => intro h; exact absurd rfl h
  | @cons x t xs ts h1 h2 ih =>
    intro _ st i hg hi
    have hx := ha _ (List.mem_cons_self ..)
    simp only [altOk, Bool.and_eq_true] at hx
    obtain ⟨r, e, hr⟩ := top_does (P := P) h1 (hk _ (by simp)) hx.1.1 (fun _ => hx.1.2) hlen hq (hn _ (by simp)) hC st i hg hi
    cases h2 with
    | nil =>
      rw [run_alt_one]
      exact ⟨r, e, by simpa [picksOf] using hr⟩
    | @cons y t' ys ts' h3 h4 =>
      simp only [run, runs, dfs]
      rw [e]
      simp only
      by_cases hacc : r.accepted = true
      · rw [if_pos hacc]
        refine ⟨r, rfl, ?_⟩
        refine agrees_head hr ?_
        have := (agrees_yes hr).1 hacc
        cases hp : hatPicks cx.query x.1 x.2 i with
        | nil => exact absurd hp this
        | cons a l => simp [picksOf, hp]
      · rw [if_neg hacc]
        have hf : r.accepted = false := by simpa using hacc
        have hpos := run_clean cx t (top_clean h1 hx.2) [] st r (by rw [hi]; omega) e hf
        have hrest := (rest_run cx t [] (by simp)).start _ _ e
        have hgr : Good cx P r := (run_good (nul := x.2.dollar) (hn _ (by simp)) hC t (top_safe h1 _ id).1 (by simp [(top_safe h1 true (fun _ => rfl)).2]) []
          (by simp) |>.get hg e)
        obtain ⟨r2, e2, hr2⟩ := ih (fun z hz => hk z (by simp [hz])) (fun z hz => ha z (by simp [hz])) (fun z hz => hn z (by simp [hz])) (by simp)
          { r with accepted := true } i (hgr.flag true) (by simp only [hpos, hi])
        refine ⟨r2, by simpa [run, runs] using e2, ?_⟩
        have : hatPicks cx.query x.1 x.2 i = [] := by
          cases hp : hatPicks cx.query x.1 x.2 i with
          | nil => rfl
          | cons a l => rw [hp] at hr; exact absurd hr.1 hacc
        have hpe : picksOf cx.query (x :: y :: ys) i = picksOf cx.query (y :: ys) i := by
          rw [picksOf, this, List.nil_append]
        rw [hpe]; exact hr2

end

/-- The relation between the start and the end of the preferred match. -/
def Best (q : List Int) (as : Alts) (i j : Nat) : Prop := (as.picks q i).head? = some j

theorem best_some {q : List Int} {as : Alts} {i : Nat} : Some2 (Best q as) i ↔ as.picks q i ≠ [] := by
  unfold Some2 Best
  cases as.picks q i <;> simp

theorem fits_loopHead {f : Bool} {a : Atom} {k : Quant} {s : Sq} {c : Node} (hf : Fits f (.cons a k s) [c]) (hkn : Known f (.cons a k s)) (hr : (Sq.cons a k s).regular = true)
    (hl : (Sq.cons a k s).loopHead = true) (hk : k ≠ .once) : ∃ m, loopHead true c = some m ∧ testOf m = a.set := by
  simp only [Sq.loopHead, Bool.and_eq_true, Bool.or_eq_true, beq_iff_eq] at hl
  simp only [Sq.regular, Bool.and_eq_true] at hr
  have hst := hl.1
  have hrest : ∀ cs, Fits f s cs → cleans cs = true ∧ (k.hiN = umax ∨ nullables cs = true) := by
    intro cs hf
    rcases hl.2 with h | ⟨h1, h2⟩
    · have := fits_null hf hr.2 hkn.rest h
      exact ⟨this.2.1, Or.inr this.2.2⟩
    · exact ⟨(fits_firm hf h2).2.1, Or.inl (by simp [Quant.hiN, h1])⟩
  have hsane := sane_bounds (k := k) hr.1.1.2
  cases hf with
  | once => exact absurd rfl hk
  | last => exact absurd rfl hk
  | @exact _ m _ cs d md ha hf' =>
    obtain ⟨h3, h4⟩ := hrest cs hf'
    have h4 : nullables cs = true := by
      rcases hl.2 with h | ⟨h1, h2⟩
      · exact (fits_null hf' hr.2 hkn.rest h).2.2
      · simp [Quant.hi] at h1
    exact ⟨m, by simp [loopHead, h3, h4, ha.steady hst], ha.test⟩
  | @possessive _ m _ _ cs ha hf' h1 h2 =>
    obtain ⟨h3, h4⟩ := hrest cs hf'
    refine ⟨m, ?_, ha.test⟩
    rcases h4 with h4 | h4 <;> simp [loopHead, ha.steady hst, hsane.1, h3, h4]
    rw [h4] at hsane; exact hsane.1
  | @greedy _ m _ _ cs ha hf' h1 h2 h3' =>
    obtain ⟨h3, h4⟩ := hrest cs hf'
    refine ⟨m, ?_, ha.test⟩
    have ho : optPath m k.lo k.hiN = false := by
      cases h : optPath m k.lo k.hiN with
      | false => rfl
      | true =>
        have ⟨hlo, hhi, _⟩ := (optPath_iff _ _ _).1 h
        exact absurd ⟨hlo, hhi⟩ (known_greedy hkn h1 h2 h3' hr.1.2).2.2
    rcases h4 with h4 | h4
    · rw [h4] at hsane ho ⊢
      simp [loopHead, ha.steady hst, hsane.1, h3, ho]
    · simp [loopHead, ha.steady hst, hsane.1, h3, h4, ho]
  | @lazy _ m _ _ cs ha hf' h1 h2 h3' =>
    obtain ⟨h3, h4⟩ := hrest cs hf'
    refine ⟨m, ?_, ha.test⟩
    rcases h4 with h4 | h4
    · rw [h4] at hsane ⊢
      simp [loopHead, ha.steady hst, hsane.1, h3]
    · simp [loopHead, ha.steady hst, hsane.1, h3, h4]

/-- Every alternative meets the condition. -/
theorem robust_bodies : ∀ (as : Alts), as.robust = true → ∀ x ∈ as.bodies, x.2.robust = true
  | .last hat s, h, x, hx => by simp only [Alts.bodies, List.mem_singleton] at hx; subst hx; exact h
  | .more hat s as, h, x, hx => by
    simp only [Alts.robust, Bool.and_eq_true] at h
    simp only [Alts.bodies, List.mem_cons] at hx
    rcases hx with rfl | hx
    · exact h.1
    · exact robust_bodies as h.2 x hx

/-- A tree that does what the list says, and whose failed attempts skip nothing. -/
theorem attempts_of {cx : Ctx} {as : Alts} {t : Node} (hsafe : SafeTree cx t)
    (hd : ∀ L s, 0 ≤ L → L ≤ s → DoesT cx ⟨L, s, groupsOf t, fun _ _ _ => True⟩ (as.picks cx.query) t)
    (hsk : startClean t = true ∨ ∃ m, loopHead true t = some m ∧ ∀ i d, InClass cx.query (testOf m) i d → as.picks cx.query (i + d) ≠ [] →
      as.picks cx.query i ≠ []) : AttemptsR cx t (Best cx.query as) := by
  refine ⟨hsafe, ?_⟩
  intro L s st st' hL hs hg hst _ e1
  obtain ⟨hn, _⟩ := hg.nat
  obtain ⟨r, e2, ha⟩ := hd L s hL hs st (off st) hg hn
  rw [e1] at e2; cases e2
  have hiff : st'.accepted = true ↔ Some2 (Best cx.query as) (off st) := by rw [best_some]; exact agrees_yes ha
  refine ⟨hiff, fun hacc => ?_, fun hrej x h1 h2 hx => ?_⟩
  · have := (agrees_yes ha).1 hacc
    unfold Best
    cases hp : as.picks cx.query (off st) with
    | nil => exact absurd hp this
    | cons a l =>
      rw [hp] at ha
      have : off st' = a := by unfold off; rw [ha.2]; simp
      simp [this]
  · have hno : ¬ Some2 (Best cx.query as) (off st) := fun h => by rw [hiff.2 h] at hrej; simp at hrej
    rcases hsk with hsk | ⟨m, hm, hshift⟩
    · obtain ⟨d, hd, hin⟩ := run_startClean (p := fun _ => false) t hsk [] (by simp) st st' hg hst e1 hrej
      have : d = 0 := by
        cases d with
        | zero => rfl
        | succ d => obtain ⟨c, _, hc⟩ := hin 0 (by omega); simp at hc
      subst this
      have : x = off st := by unfold off at h1 h2 ⊢; unfold off at hd; omega
      rw [this] at hx; exact hno hx
    · obtain ⟨d, hd, hin⟩ := run_head t true m hm [] (by simp) st st' hg hst e1 hrej
      have hxe : x = off st + (x - off st) := by omega
      have hle : x - off st ≤ d := by
        have : off st' = off st + d := by
          have : st'.pos = ((off st + d : Nat) : Int) := hd
          show st'.pos.toNat = off st + d
          omega
        omega
      rw [best_some] at hx hno
      rw [hxe] at hx
      exact hno (hshift _ _ (inClass_mono hin hle) hx)

/-- A pattern contains `$` if one of its alternatives does. -/
theorem dollar_bodies : ∀ (as : Alts), ∀ x ∈ as.bodies, x.2.dollar = true → as.dollar = true
  | .last hat s, x, hx, h => by simp only [Alts.bodies, List.mem_singleton] at hx; subst hx; exact h
  | .more hat s as, x, hx, h => by
    simp only [Alts.bodies, List.mem_cons] at hx
    rcases hx with rfl | hx
    · simp only at h; simp [Alts.dollar, h]
    · simp [Alts.dollar, dollar_bodies as x hx h]

/-- Searching with a regular pattern finds the preferred match. -/
theorem regular_attempts {cx : Ctx} {as : Alts} {t : Node} {f : Bool} (hr : as.regular = true) (hk : f = true ∨ as.robust = true) (hw : Whole f as.bodies t) (hlen : cx.query.length < umax)
    (hq : ∀ c ∈ cx.query, c ∈ allChars) (hn : as.dollar = true → cx.post.head? = some 0) : AttemptsR cx t (Best cx.query as) := by
  have hnb : ∀ x ∈ as.bodies, x.2.dollar = true → cx.post.head? = some 0 := fun x hx h => hn (dollar_bodies as x hx h)
  have hkb : ∀ x ∈ as.bodies, Known f x.2 := fun x hx => hk.imp id (fun h => robust_bodies as h x hx)
  obtain ⟨hs1, hs2⟩ := whole_safe hw as.dollar (dollar_bodies as)
  have hsafe : SafeTree cx t := safeTree hn hs1 (by simp [hs2])
  -- alternatives that restore the position
  have alts : (∀ x ∈ as.bodies, altOk x.1 x.2 = true) → AttemptsR cx t (Best cx.query as) := by
    intro ha
    have hbn : as.bodies ≠ [] := by cases as <;> simp [Alts.bodies]
    generalize hb : as.bodies = xs at hw ha hnb hbn hkb
    cases hw with
    | @alt _ ts h =>
      have hne : ts ≠ [] := by
        rintro rfl
        cases h; exact hbn rfl
      have hc := tops_clean h ha
      refine attempts_of hsafe (fun L s hL hs st i hg hi => ?_) (Or.inl (startClean_of_clean _ (by simpa [clean] using hc)))
      rw [← picksOf_bodies, hb]
      exact tops_does h hkb ha hlen hq hnb (fun _ _ _ => trivial) hne st i hg hi
    | @one x t h =>
      have hx := ha x (by simp)
      simp only [altOk, Bool.and_eq_true] at hx
      refine attempts_of hsafe (fun L s hL hs st i hg hi => ?_) (Or.inl (startClean_of_clean _ (top_clean h hx.2)))
      rw [← picksOf_bodies, hb]
      simpa [picksOf] using top_does h (hkb x (by simp)) hx.1.1 (fun _ => hx.1.2) hlen hq (hnb x (by simp)) (fun _ _ _ => trivial) st i hg hi
  cases as with
  | more hat s as => exact alts (bodies_all (.more hat s as) (by simpa [Alts.regular, Alts.allOk] using hr))
  | last hat s =>
    simp only [Alts.regular, Bool.or_eq_true, Bool.and_eq_true] at hr
    rcases hr with hr | ⟨⟨hh, hr⟩, hl⟩
    · exact alts (bodies_all (.last hat s) hr)
    · simp only [Bool.not_eq_true'] at hh
      subst hh
      have hpk : Alts.picks cx.query (.last false s) = s.picks cx.query := by funext i; simp [Alts.picks, hatPicks]
      -- the tree is the tree of the sequence
      have hc : ∃ c, Fits f s [c] ∧ (t = c ∨ t = .alt [c]) := by
        simp only [Alts.bodies] at hw
        cases hw with
        | one h => cases h with | plain h => exact ⟨t, h, Or.inl rfl⟩
        | alt h =>
          cases h with
          | cons h1 h2 => cases h2; cases h1 with | plain h => exact ⟨_, h, Or.inr rfl⟩
      obtain ⟨c, hf, ht⟩ := hc
      have hrun : ∀ inj, run cx t inj = run cx c inj := by
        intro inj
        rcases ht with rfl | rfl
        · rfl
        · exact run_alt_one cx c inj
      refine attempts_of hsafe (fun L s' hL hs st i hg hi => ?_) ?_
      · rw [hpk, hrun]
        have := fits_does hf (hkb (false, s) (by simp [Alts.bodies])) hr hlen hq (fun h => hnb (false, s) (by simp [Alts.bodies]) h) (fun _ _ _ => trivial) st i hg hi (Or.inr (by simp))
        rwa [run_alt_one] at this
      · rw [hpk]
        cases s with
        | nil => simp [Sq.loopHead] at hl
        | cons a k s =>
          by_cases hk : k = .once
          · left
            subst hk
            have hst : (Sq.cons a .once s).firm = true := by
              simp only [Sq.loopHead, Bool.and_eq_true] at hl
              simpa [Sq.firm] using hl.1
            have := (fits_firm hf hst).2.1
            simp only [cleans, Bool.and_true] at this
            rcases ht with rfl | rfl
            · exact startClean_of_clean _ this
            · exact startClean_of_clean _ (by simpa [clean, cleans] using this)
          · right
            obtain ⟨m, h1, h2⟩ := fits_loopHead hf (hkb (false, .cons a k s) (by simp [Alts.bodies])) hr hl hk
            refine ⟨m, ?_, fun i d hin hp => ?_⟩
            · rcases ht with rfl | rfl
              · exact h1
              · simpa [loopHead] using h1
            · rw [h2] at hin
              exact loopHead_shift hl hin hp

end ERegex

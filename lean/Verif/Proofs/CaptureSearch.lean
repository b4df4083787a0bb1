import Verif.Proofs.CaptureDo
import Verif.Proofs.PreferSearch
/-!
# Captures: the search
-/
set_option autoImplicit false
namespace ERegex
open ERegex.Spec ERegex.Props

theorem cap_length : ∀ (q : List Int) (s : Sq), shallow s = true → ∀ (i : Nat) (r : Nat × List (Nat × Nat)), r ∈ caps q s i → r.2.length = s.count
  | q, .nil d, _, i, r, hr => by
    simp only [caps, List.mem_map] at hr
    obtain ⟨e, _, rfl⟩ := hr
    rfl
  | q, .cons (.group capture as) k s, h, i, r, hr => by
    have h := shallow_group h
    have hc := (alts_ways as h.1 [] 0 0 (fun _ => none)).2
    simp only [caps, List.mem_flatMap, List.mem_map] at hr
    obtain ⟨e, _, r', hr', rfl⟩ := hr
    have := cap_length q s h.2.1 e.2 r' hr'
    cases capture <;> simp [Sq.count, Atom.count, hc, this, Nat.add_comm]
  | q, .cons (.chr _) k s, h, i, r, hr | q, .cons (.esc _) k s, h, i, r, hr | q, .cons .dot k s, h, i, r, hr | q, .cons (.hex ..) k s, h, i, r, hr
  | q, .cons (.oct ..) k s, h, i, r, hr | q, .cons (.cls ..) k s, h, i, r, hr => by
    simp only [shallow, Bool.and_eq_true] at h
    simp only [caps, List.mem_flatMap] at hr
    obtain ⟨n, _, hr⟩ := hr
    have := cap_length q s h.2 _ r hr
    simp [Sq.count, Atom.count, this]

theorem plain_count {a : Atom} (h : Plain a) : a.count = 0 := by
  cases a <;> first | rfl | simp [Plain, Atom.steady, Atom.skips] at h

theorem fitsC_groups {f : Bool} {n : Nat} {s : Sq} {cs : List Node} (hf : FitsC f n s cs) : (slotss cs).length = s.count := by
  have ws : ∀ {capture : Bool} {as : Alts} {s : Sq} {m : Node}, Whole f as.bodies m → bodyOk capture as s = true → slots m = [] ∧ as.count = 0 := by
    intro capture as s m hw hb
    refine ⟨(whole_safe hw true (fun _ _ _ => rfl)).2, ?_⟩
    simp only [bodyOk, Bool.and_eq_true] at hb
    exact (alts_ways as (body_flats hb.1.1.2) [] 0 0 (fun _ => none)).2
  have is : ∀ {n : Nat} {c : Bool} {as : Alts} {k : Quant} {s : Sq} {m : Node}, Inner f n as c m → repOk c as k s = true →
      (slots m).length = c.toNat ∧ (Atom.group c as).count = c.toNat := by
    intro n c as k s m h hb
    refine ⟨?_, by simp only [Atom.count, rep_count hb]; cases c <;> rfl⟩
    cases h with
    | cap hw => simp [slots, slotss, (ws hw (rep_body hb)).1]
    | simple hw => simp [slots, slotss, (ws hw (rep_body hb)).1]
    | bare hw => simp [(ws hw (rep_body hb)).1]
  induction hf with
  | nil => rfl
  | dollar => rfl
  | dollar' => rfl
  | once hp ha hf ih => simp [slotss, slots, ha.noslot, Sq.count, plain_count hp, ih]
  | last hp ha => simp [slotss, ha.noslot, Sq.count, plain_count hp]
  | exact hp ha hf hd ih => simp [slotss, slots, ha.noslot, Sq.count, plain_count hp, ih]
  | possessive hp ha hf _ _ ih => simp [slotss, slots, ha.noslot, Sq.count, plain_count hp, ih]
  | greedy hp ha hf _ _ _ ih => simp [slotss, slots, ha.noslot, Sq.count, plain_count hp, ih]
  | lazy hp ha hf _ _ _ ih => simp [slotss, slots, ha.noslot, Sq.count, plain_count hp, ih]
  | cap hw hf hb _ ih => obtain ⟨h1, h2⟩ := ws hw hb; simp [slotss, slots, h1, h2, Sq.count, Atom.count, ih, Nat.add_comm]
  | capLoop hl hf hk hb ih =>
    have h1 := (loop_safe hl true).2
    simp only [loopOk, Bool.and_eq_true] at hb
    simp [slotss, slots, h1, Sq.count, Atom.count, Alts.count, plain_count hb.1.1.2, ih]; omega
  | non hw hf hb ih => obtain ⟨h1, h2⟩ := ws hw hb; simp [slotss, slots, h1, h2, Sq.count, Atom.count, ih]
  | nonLast hw hb => obtain ⟨h1, h2⟩ := ws hw hb; simp [slotss, h1, h2, Sq.count, Atom.count]
  | repPoss hi hf _ hb ih => obtain ⟨h1, h2⟩ := is hi hb; simp [slotss, slots, h1, h2, Sq.count, ih]
  | repGreedy _ hi hf _ _ hb ih => obtain ⟨h1, h2⟩ := is hi hb; simp [slotss, slots, h1, h2, Sq.count, ih]
  | repExact hi hf _ hb ih => obtain ⟨h1, h2⟩ := is hi hb; simp [slotss, slots, h1, h2, Sq.count, ih]

/-- The list for the pattern. -/
def capsAt (q : List Int) (hat : Bool) (s : Sq) (i : Nat) : List (Nat × List (Nat × Nat)) := if hat && i != 0 then [] else caps q s i

theorem takes_caps (q : List Int) : ∀ (s : Sq) (i : Nat), s.takes = true → i ≤ q.length → caps q s i ≠ [] → i < q.length
  | .nil _, _, h, _, _ => by simp [Sq.takes] at h
  | .cons (.group capture as) k s, i, h, hi, hc => by
    simp only [Sq.takes, Bool.or_eq_true, Bool.and_eq_true, bne_iff_ne] at h
    have : ∃ p ∈ spans q.length k (as.picks q) i, caps q s p.2 ≠ [] := by
      simp only [caps, ne_eq, List.flatMap_eq_nil_iff, List.map_eq_nil_iff, Classical.not_forall] at hc
      obtain ⟨p, hp, h⟩ := hc
      exact ⟨p, hp, h⟩
    obtain ⟨p, h1, h2⟩ := this
    rcases h with h | h
    · rw [List.all_eq_true] at h
      rcases spans_first h1 with h3 | h3
      · exact absurd h3.2 h.1
      · obtain ⟨e, he⟩ := List.exists_mem_of_ne_nil _ h3
        obtain ⟨b, hb, he⟩ := alts_mem q as i e he
        exact eats_picks q b i (h.2 b hb) (List.ne_nil_of_mem he)
    · have := spans_inside (fun i e hi he => alts_le hi he) hi h1
      have := takes_caps q s p.2 h this.2 h2
      omega
  | .cons (.chr x) k s, i, h, hi, hc | .cons (.esc x) k s, i, h, hi, hc | .cons .dot k s, i, h, hi, hc | .cons (.hex x y) k s, i, h, hi, hc
  | .cons (.oct x y z) k s, i, h, hi, hc | .cons (.cls x y z) k s, i, h, hi, hc => by
    simp only [caps, ne_eq, List.flatMap_eq_nil_iff, Classical.not_forall] at hc
    obtain ⟨n, hn, hs⟩ := hc
    obtain ⟨h1, h2⟩ := counts_sub k _ n hn
    have hle : i + n ≤ q.length := Nat.le_trans (Nat.add_le_add_left h2 i) (runLen_le q _ i hi)
    simp only [Sq.takes, Bool.or_eq_true, bne_iff_ne] at h
    rcases h with h | h
    · have := h1.1; omega
    · have := takes_caps q s (i + n) h (by omega) hs
      omega

section
variable {cx : Ctx} {P : Par}

theorem root_safe {f : Bool} {n : Nat} {hat : Bool} {s : Sq} {t : Node} (h : RootC f n hat s t) (hkn : KnownC f s) (nul : Bool) (hn : s.dollar = true → nul = true) :
    safe nul t = true ∧ groupsOf t = s.count ∧ ∀ i ∈ slots t, n ≤ i ∧ i < n + s.count := by
  rw [groups_slots]
  induction h with
  | hat h1 hf hne =>
    obtain ⟨h2, h3⟩ := fitsC_safe hf hkn nul hn
    have := fitsC_groups hf
    simp only [safe, slots, List.nil_append, h2, this, Bool.and_true, true_and]
    exact h3
  | plain h1 hf =>
    obtain ⟨h2, h3⟩ := fitsC_safe hf hkn nul hn
    have := fitsC_groups hf
    simp only [safes, slotss, List.append_nil, Bool.and_true] at h2 h3 this
    exact ⟨h2, this, h3⟩
  | wrap _ ih => simpa [safe, safes, slots, slotss] using ih

theorem root_does {f : Bool} {n : Nat} {hat : Bool} {s : Sq} {t : Node} (h : RootC f n hat s t) (hkn : KnownC f s) (hr : s.capOk = true) (ht : hat = true → s.takes = true)
    (hlen : cx.query.length < umax) (hq : ∀ c ∈ cx.query, c ∈ allChars) (hn : s.dollar = true → cx.post.head? = some 0) (hC : ∀ i a b, P.C i a b)
    (hN : n + s.count ≤ P.n) {st st' : St} {i : Nat} (hg : Good cx P st) (hi : st.pos = i) (hacc : st.accepted = true ∨ i < cx.query.length)
    (e : run cx t [] st = some st') : AgreesC (capsAt cx.query hat s i) n st' := by
  induction h with
  | @hat cs h1 hf hne =>
    subst h1
    have hd := fitsC_does (P := P) hf hkn hr hlen hq hn hC (by omega)
    have hb := hg.pos
    rw [hi] at hb
    simp only [run, simpleMatch, bosMatch] at e
    by_cases hp : st.pos ≥ cx.qend
    · rw [if_pos hp] at e
      simp only [Bool.false_eq_true, if_false, Option.some.injEq] at e
      subst e
      refine agreesC_no ?_ rfl
      unfold capsAt
      split
      · rfl
      · cases hc : caps cx.query s i with
        | nil => rfl
        | cons x l =>
          have := takes_caps cx.query s i (ht rfl) (by have := hb.2; unfold Ctx.qend at this; omega) (by rw [hc]; simp)
          rw [hi] at hp; unfold Ctx.qend at hp; omega
    · rw [if_neg hp] at e
      by_cases h0 : st.pos = 0
      · have hi0 : i = 0 := by omega
        simp only [h0, decide_true, if_true] at e
        have hce : capsAt cx.query true s i = caps cx.query s i := by simp [capsAt, hi0]
        rw [hce]
        split at e
        · simp at e
        · rename_i st2 h2
          have ha := hd { st with accepted := true } st2 i (hg.flag true) hi (Or.inl rfl) (by rw [← h2, ← h0])
          split at e
          · cases e; exact ha
          · rename_i hna
            cases e
            exact agreesC_no (agreesC_nil ha (by simpa using hna)) (by simpa using hna)
      · simp only [h0, decide_false, Bool.false_eq_true, if_false, Option.some.injEq] at e
        subst e
        refine agreesC_no ?_ rfl
        unfold capsAt
        rw [if_pos]
        simp; omega
  | @plain t h1 hf =>
    subst h1
    have hd := fitsC_does (P := P) hf hkn hr hlen hq hn hC (by omega)
    have := hd st st' i hg hi (by rcases hacc with h | h; exact Or.inl h; exact Or.inr ⟨by simp, h⟩) (by simpa only [runs, dfs] using e)
    simpa [capsAt] using this
  | wrap _ ih => rw [run_alt_one] at e; exact ih e

end

/-! ## what a failed attempt skips -/

theorem counts_shift {q : List Int} {S : Int → Bool} {k : Quant} {F : Nat → Prop} (hF : k.hi = none ∨ ∀ x, F x) {i d n : Nat} (h : InClass q S i d)
    (hn : n ∈ k.counts (runLen S (q.drop (i + d)))) (hs : F (i + d + n)) : ∃ n', n' ∈ k.counts (runLen S (q.drop i)) ∧ F (i + n') := by
  have he := runLen_shift h
  obtain ⟨h1, h2⟩ := counts_sub k _ n hn
  rcases hF with hn0 | hF
  · refine ⟨d + n, ?_, by rwa [← Nat.add_assoc]⟩
    by_cases hm : k.mode = .possessive
    · unfold Quant.counts Quant.top at hn ⊢
      rw [hm, hn0] at hn ⊢
      simp only at hn ⊢
      split at hn
      · simp only [List.mem_singleton] at hn
        rw [if_pos (by omega)]
        simp only [List.mem_singleton]; omega
      · simp at hn
    · exact (mem_greedy k _ _ hm).2 ⟨⟨by have := h1.1; omega, by rw [hn0]; simp⟩, by omega⟩
  · have hlt : k.lo ≤ k.top (runLen S (q.drop i)) := (le_top ..).2 ⟨fun h hh => Nat.le_trans h1.1 (h1.2 h hh), by have := h1.1; omega⟩
    have ht := (le_top k (k.top (runLen S (q.drop i))) _).1 (Nat.le_refl _)
    refine ⟨k.top (runLen S (q.drop i)), ?_, hF _⟩
    by_cases hm : k.mode = .possessive
    · unfold Quant.counts; rw [hm]; simp only [hlt, if_true, List.mem_singleton]
    · exact (mem_greedy k _ _ hm).2 ⟨⟨hlt, ht.1⟩, ht.2⟩

/-- The loop at the head of the sequence: its atom, and the matches can be moved to the left over its characters. -/
def Shifts (q : List Int) (a : Atom) (s : Sq) : Prop := ∀ i d, InClass q a.set i d → caps q s (i + d) ≠ [] → caps q s i ≠ []

theorem shift_atom {q : List Int} {a : Atom} {k : Quant} {s : Sq} (hp : Plain a) (hF : k.hi = none ∨ s = .nil false) : Shifts q a (.cons a k s) := by
  intro i d hin hc
  rw [caps_atom hp] at hc ⊢
  simp only [ne_eq, List.flatMap_eq_nil_iff, Classical.not_forall] at hc
  obtain ⟨n, hn, hs⟩ := hc
  obtain ⟨n', h1, h2⟩ := counts_shift (F := fun x => caps q s x ≠ []) (by
    rcases hF with h | h
    · exact Or.inl h
    · subst h; exact Or.inr (fun x => by simp [caps, Sq.picks])) hin hn hs
  intro hc
  rw [List.flatMap_eq_nil_iff] at hc
  exact h2 (hc n' h1)

theorem shift_group {q : List Int} {a : Atom} {k : Quant} {s : Sq} (hF : k.hi = none ∨ s = .nil false) :
    Shifts q a (.cons (.group true (.last false (.cons a k (.nil false)))) .once s) := by
  intro i d hin hc
  have key : ∀ x, caps q (.cons (.group true (.last false (.cons a k (.nil false)))) .once s) x ≠ [] ↔
      ∃ n, n ∈ k.counts (runLen a.set (q.drop x)) ∧ caps q s (x + n) ≠ [] := by
    intro x
    rw [caps_once, loop_picks]
    simp only [ne_eq, List.flatMap_eq_nil_iff, List.map_eq_nil_iff, Classical.not_forall]
    simp only [exists_prop]
  rw [key] at hc ⊢
  obtain ⟨n, hn, hs⟩ := hc
  exact counts_shift (F := fun x => caps q s x ≠ []) (by
    rcases hF with h | h
    · exact Or.inl h
    · subst h; exact Or.inr (fun x => by simp [caps, Sq.picks])) hin hn hs

theorem hiN_none {k : Quant} (h : k.hi = none) : k.hiN = umax := by simp [Quant.hiN, h]

/-- The loop of a group. -/
theorem loop_heads {f : Bool} {a : Atom} {k : Quant} {s : Sq} {m : Node} (hl : Loop f a k s m) (hfix : k.fixed = false) (hlk : f = true ∨ loopStout a k s = true) (hst : a.steady = true) (hok : loopOk a k s = true) :
    ∃ m', testOf m' = a.set ∧ pureLoop m = true ∧ loopHead true m = some m' ∧ (k.hi = none → loopHead false m = some m') := by
  simp only [loopOk, Bool.and_eq_true] at hok
  obtain ⟨⟨⟨_, hp⟩, hsane⟩, hmode⟩ := hok
  have hbd := sane_bounds hsane
  induction hl with
  | @possessive m ha _ =>
    refine ⟨m, ha.test, by simp [pureLoop, ha.steady hst, hbd.1], by simp [loopHead, nullables, totals, ha.steady hst, hbd.1, cleans], fun h => ?_⟩
    have h1 := hbd.1
    rw [hiN_none h] at h1 ⊢
    simp [loopHead, nullables, totals, ha.steady hst, h1, cleans]
  | @greedy m ha hmo hm =>
    replace hmode : a.steady = true ∧ (!(k.lo == 0 && k.hi == some 1)) = true := by
      rcases hlk with h | h
      · rw [hmo, hm h] at hmode
        simpa only [if_true, Bool.and_eq_true] using hmode
      · unfold loopStout at h
        rw [not_held hfix (by rw [hmo]; simp), hmo] at h
        simpa only [Bool.false_or, Bool.and_eq_true] using h
    have hopt : optPath m k.lo k.hiN = false := by
      cases ho : optPath m k.lo k.hiN with
      | false => rfl
      | true => exact absurd ⟨((optPath_iff ..).1 ho).1, ((optPath_iff ..).1 ho).2.1⟩ (hi_one hmode.2)
    refine ⟨m, ha.test, by simp [pureLoop, ha.steady hst, hbd.1, hopt], by simp [loopHead, nullables, totals, ha.steady hst, hbd.1, cleans, hopt], fun h => ?_⟩
    have h1 := hbd.1
    rw [hiN_none h] at h1 hopt ⊢
    simp [loopHead, nullables, totals, ha.steady hst, h1, cleans, hopt]
  | @lazy m ha hmo hm =>
    refine ⟨m, ha.test, by simp [pureLoop, ha.steady hst, hbd.1], by simp [loopHead, nullables, totals, ha.steady hst, hbd.1, cleans], fun h => ?_⟩
    have h1 := hbd.1
    rw [hiN_none h] at h1 ⊢
    simp [loopHead, nullables, totals, ha.steady hst, h1, cleans]
  | wrap _ ih =>
    obtain ⟨m', h1, h2, h3, h4⟩ := ih
    exact ⟨m', h1, by simpa [pureLoop] using h2, by simpa [loopHead, nullables, totals] using h3, fun h => by simpa [loopHead, nullables, totals] using h4 h⟩

/-- The tree alone shows that a failed attempt skips only characters of the loop. -/
def _root_.ERegex.Spec.Sq.startsTree : Sq → Bool
  | .cons (.group true (.last _ (.cons a k (.nil false)))) .once (.nil false) => a.steady && !k.fixed
  | .cons (.group true (.last _ (.cons a k (.nil false)))) .once s => a.steady && k.hi == none && s.solid
  | .cons (.group ..) _ _ => false
  | .cons a _ (.nil false) => a.steady
  | .cons a k s => a.steady && k.hi == none && s.solid
  | .nil _ => false

theorem starts_rep {c : Bool} {as : Alts} {k : Quant} (hk : k ≠ .once) {s : Sq} : (Sq.cons (.group c as) k s).startsTree = false := by
  cases k <;> first | exact absurd rfl hk | simp [Sq.startsTree]

/-- The tree of a sequence that begins with a loop. -/
theorem starts_loop {f : Bool} {n : Nat} {s : Sq} {t : Node} (hf : FitsC f n s [t]) (hkn : KnownC f s) (hr : s.capOk = true) (hl : s.startsTree = true) :
    clean t = true ∨ ∃ m a, loopHead true t = some m ∧ testOf m = a.set ∧ ∀ q, Shifts q a s := by
  have hrest : ∀ {a : Atom} {k : Quant} {s : Sq} {cs : List Node}, Plain a → (Sq.cons a k s).startsTree = true → FitsC f n s cs →
      a.steady = true ∧ (k.hi = none ∨ s = .nil false) ∧ cleans cs = true ∧ (k.hiN = umax ∨ cs = []) := by
    intro a k s cs hp hl hf
    have h1 : a.steady = true ∧ (s = .nil false ∨ (k.hi = none ∧ s.solid = true)) := by
      cases a with
      | group => simp [Plain, Atom.steady, Atom.skips] at hp
      | _ =>
        cases s with
        | nil b => cases b <;> simp [Sq.startsTree] at hl <;> simp [hl]
        | cons => simp only [Sq.startsTree, Bool.and_eq_true, beq_iff_eq] at hl; exact ⟨hl.1.1, Or.inr ⟨hl.1.2, hl.2⟩⟩
    refine ⟨h1.1, ?_⟩
    rcases h1.2 with h | ⟨h, h'⟩
    · subst h
      cases hf
      exact ⟨Or.inr rfl, rfl, Or.inr rfl⟩
    · exact ⟨Or.inl h, (fitsC_solid hf h').2.1, Or.inl (hiN_none h)⟩
  have hsane : ∀ {a : Atom} {k : Quant} {s : Sq}, Plain a → (Sq.cons a k s).capOk = true → k.sane = true ∧ atomOk a k s = true := by
    intro a k s hp hr
    rcases capOk_cases hr with ⟨_, _, hsane, hok, hr'⟩ | ⟨c, as, rfl, _⟩ | ⟨c, as, rfl, _⟩
    · exact ⟨hsane, hok⟩
    · simp [Plain, Atom.steady, Atom.skips] at hp
    · simp [Plain, Atom.steady, Atom.skips] at hp
  cases hf with
  | dollar => simp [Sq.startsTree] at hl
  | dollar' => simp [Sq.startsTree] at hl
  | once hp ha hf =>
    left
    obtain ⟨h1, h2, h3, h4⟩ := hrest hp hl hf
    simp [clean, single_clean (ha.steady h1)]
  | last hp ha =>
    left
    obtain ⟨h1, _⟩ := hrest hp hl (.nil _ _)
    exact single_clean (ha.steady h1)
  | @exact _ _ m s cs d md hp ha hf hd =>
    right
    obtain ⟨h1, h2, h3, h4⟩ := hrest hp hl hf
    have : cs = [] := by
      rcases h2 with h | h
      · simp [Quant.hi] at h
      · subst h; cases hf; rfl
    subst this
    exact ⟨m, _, by simp [loopHead, nullables, totals, cleans, ha.steady h1], ha.test, fun q => shift_atom hp h2⟩
  | @possessive _ _ m k s cs hp ha hf hk hc =>
    right
    obtain ⟨h1, h2, h3, h4⟩ := hrest hp hl hf
    have hbd := sane_bounds (hsane hp hr).1
    refine ⟨m, _, ?_, ha.test, fun q => shift_atom hp h2⟩
    rcases h4 with h4 | rfl
    · rw [h4] at hbd ⊢
      simp [loopHead, nullables, totals, cleans, ha.steady h1, hbd.1, h3]
    · simp [loopHead, nullables, totals, cleans, ha.steady h1, hbd.1, cleans]
  | @greedy _ _ m k s cs hp ha hf hk hmo hc =>
    right
    obtain ⟨h1, h2, h3, h4⟩ := hrest hp hl hf
    have hbd := sane_bounds (hsane hp hr).1
    have hok := (knownC_greedy hp hkn hk hmo hc (hsane hp hr).2).2
    have hopt : optPath m k.lo k.hiN = false := by
      cases ho : optPath m k.lo k.hiN with
      | false => rfl
      | true => exact absurd ⟨((optPath_iff ..).1 ho).1, ((optPath_iff ..).1 ho).2.1⟩ (hi_one hok.2)
    refine ⟨m, _, ?_, ha.test, fun q => shift_atom hp h2⟩
    rcases h4 with h4 | rfl
    · rw [h4] at hbd hopt ⊢
      simp [loopHead, nullables, totals, cleans, ha.steady h1, hbd.1, h3, hopt]
    · simp [loopHead, nullables, totals, cleans, ha.steady h1, hbd.1, cleans, hopt]
  | @lazy _ _ m k s cs hp ha hf hk hmo hc =>
    right
    obtain ⟨h1, h2, h3, h4⟩ := hrest hp hl hf
    have hbd := sane_bounds (hsane hp hr).1
    refine ⟨m, _, ?_, ha.test, fun q => shift_atom hp h2⟩
    rcases h4 with h4 | rfl
    · rw [h4] at hbd ⊢
      simp [loopHead, nullables, totals, cleans, ha.steady h1, hbd.1, h3]
    · simp [loopHead, nullables, totals, cleans, ha.steady h1, hbd.1, cleans]
  | @cap _ as m s cs hw hf hb hx =>
    exfalso
    have hbare : as.bare = true := by simp only [bodyOk, Bool.and_eq_true] at hb; exact hb.1.1.1
    have key : ∃ a k, as = .last false (.cons a k (.nil false)) ∧ k.fixed = false := by
      unfold Sq.startsTree at hl
      split at hl
      · rename_i h a k heq
        simp only [Sq.cons.injEq, Atom.group.injEq, true_and] at heq
        obtain ⟨rfl, _⟩ := heq
        simp only [Bool.and_eq_true, Bool.not_eq_true'] at hl
        simp only [Alts.bare, Bool.and_eq_true, Bool.not_eq_true'] at hbare
        exact ⟨a, k, by rw [hbare.1], hl.2⟩
      · rename_i h a k s' _ heq
        simp only [Sq.cons.injEq, Atom.group.injEq, true_and] at heq
        obtain ⟨rfl, _⟩ := heq
        simp only [Bool.and_eq_true, beq_iff_eq] at hl
        simp only [Alts.bare, Bool.and_eq_true, Bool.not_eq_true'] at hbare
        refine ⟨a, k, by rw [hbare.1], ?_⟩
        cases k <;> simp [Quant.fixed, Quant.hi] at hl ⊢
      · simp at hl
      all_goals (exfalso; grind)
    obtain ⟨a, k, h1, h2⟩ := key
    rw [hx a k h1] at h2
    cases h2
  | @capLoop _ a k m s cs hlo hf hk hb =>
    right
    have h1 : a.steady = true ∧ (s = .nil false ∨ (k.hi = none ∧ s.solid = true)) := by
      cases s with
      | nil b => cases b <;> simp [Sq.startsTree] at hl <;> simp [hl]
      | cons => simp only [Sq.startsTree, Bool.and_eq_true, beq_iff_eq] at hl; exact ⟨hl.1.1, Or.inr ⟨hl.1.2, hl.2⟩⟩
    obtain ⟨m', h2, h3, h4, h5⟩ := loop_heads hlo hk (knownC_loop hkn).1 h1.1 hb
    refine ⟨m', a, ?_, h2, fun q => shift_group ?_⟩
    · rcases h1.2 with h | ⟨h, h'⟩
      · subst h; cases hf
        simp [loopHead, nullables, totals, cleans, h4]
      · obtain ⟨h6, h7, _⟩ := fitsC_solid hf h'
        simp only [loopHead, h7, h3, Bool.and_self, Bool.or_true, if_true, Bool.true_and]
        cases nullables cs
        · exact h5 h
        · exact h4
    · rcases h1.2 with h | ⟨h, h'⟩
      · exact Or.inr h
      · exact Or.inl h
  | non hw hb hf => simp [Sq.startsTree] at hl
  | nonLast hw hb => simp [Sq.startsTree] at hl
  | @repPoss _ c as m k s cs hi hf hk hb => rw [starts_rep (by rintro rfl; simp [Quant.fixed] at hk)] at hl; cases hl
  | repGreedy _ _ _ hk => rw [starts_rep (by rintro rfl; simp [Quant.fixed] at hk)] at hl; cases hl
  | repExact hi hf hk hb => rw [starts_rep (by simp)] at hl; cases hl

theorem solid_voids : ∀ (s : Sq), s.solid = true → s.voids = false
  | .nil d, h => by simp only [Sq.solid] at h; simp [Sq.voids, h]
  | .cons (.group capture as) k s, h => by
    have hk : k = .once := by
      cases k <;> first | rfl | simp [Sq.solid] at h
    subst hk
    simp only [Sq.solid, Bool.and_eq_true, List.all_eq_true] at h
    simp only [Sq.voids, Quant.lo, Bool.and_eq_false_iff]
    left
    simp only [Bool.or_eq_false_iff]
    refine ⟨rfl, ?_⟩
    rw [List.any_eq_false]
    intro b hb
    have := h.2 b hb
    cases b with
    | nil => simp [Sq.steadyHead] at this
    | cons a k b => cases k <;> first | (simp [Sq.steadyHead] at this; done) | simp [Sq.nullable, Quant.lo]
  | .cons (.chr x) k s, h | .cons (.esc x) k s, h | .cons .dot k s, h | .cons (.hex x y) k s, h
  | .cons (.oct x y z) k s, h | .cons (.cls x y z) k s, h => by
    cases k <;> first | (simp [Sq.solid] at h; done) | simp [Sq.voids, Quant.lo]

theorem shift_void {q : List Int} {a : Atom} {k : Quant} {s : Sq} (hp : Plain a) (hps : plainGroups s = true) (hv : s.voids = true) : Shifts q a (.cons a k s) := by
  intro i d hin hc
  rw [caps_atom hp] at hc ⊢
  simp only [ne_eq, List.flatMap_eq_nil_iff, Classical.not_forall] at hc
  obtain ⟨n, hn, hs⟩ := hc
  obtain ⟨n', h1, h2⟩ := counts_shift (F := fun x => caps q s x ≠ []) (Or.inr (fun x => voids_caps q s hps hv x)) hin hn hs
  intro hc
  rw [List.flatMap_eq_nil_iff] at hc
  exact h2 (hc n' h1)

theorem shift_group_void {q : List Int} {a : Atom} {k : Quant} {s : Sq} (hps : plainGroups s = true) (hv : s.voids = true) :
    Shifts q a (.cons (.group true (.last false (.cons a k (.nil false)))) .once s) := by
  intro i d hin hc
  have key : ∀ x, caps q (.cons (.group true (.last false (.cons a k (.nil false)))) .once s) x ≠ [] ↔
      ∃ n, n ∈ k.counts (runLen a.set (q.drop x)) ∧ caps q s (x + n) ≠ [] := by
    intro x
    rw [caps_once, loop_picks]
    simp only [ne_eq, List.flatMap_eq_nil_iff, List.map_eq_nil_iff, Classical.not_forall]
    simp only [exists_prop]
  rw [key] at hc ⊢
  obtain ⟨n, hn, hs⟩ := hc
  exact counts_shift (F := fun x => caps q s x ≠ []) (Or.inr (fun x => voids_caps q s hps hv x)) hin hn hs

/-- Where a failed attempt at a pattern that begins with a loop leaves the position, if what follows the loop can be empty. -/
theorem starts_void {cx : Ctx} {P : Par} {f : Bool} {n : Nat} {s : Sq} {t : Node} (hf : FitsC f n s [t]) (hkn : KnownC f s) (hr : s.capOk = true) (hl : s.startsLoop = true)
    (hnt : s.startsTree = false) (hlen : cx.query.length < umax)
    (hq : ∀ c ∈ cx.query, c ∈ allChars) (hn : s.dollar = true → cx.post.head? = some 0) (hC : ∀ i a b, P.C i a b) (hN : n + s.count ≤ P.n) :
    clean t = true ∨ ∃ a, Shifts cx.query a s ∧ Trail cx P a.set (run cx t []) := by
  have hrest : ∀ {a : Atom} {k : Quant} {s : Sq}, Plain a → (Sq.cons a k s).startsLoop = true → (Sq.cons a k s).startsTree = false → a.steady = true ∧ s.voids = true := by
    intro a k s hp hl hnt
    cases a with
    | group => simp [Plain, Atom.steady, Atom.skips] at hp
    | _ =>
      simp only [Sq.startsLoop, Bool.and_eq_true, Bool.or_eq_true] at hl
      refine ⟨hl.1, ?_⟩
      rcases hl.2 with h | h
      · exact h
      · exfalso
        cases s with
        | nil b => cases b <;> simp [Sq.startsTree, hl.1, h] at hnt
        | cons => simp [Sq.startsTree, hl.1, h] at hnt
  have hsane : ∀ {a : Atom} {k : Quant} {s : Sq}, Plain a → (Sq.cons a k s).capOk = true → k.sane = true ∧ atomOk a k s = true := by
    intro a k s hp hr
    rcases capOk_cases hr with ⟨_, _, hsane, hok, hr'⟩ | ⟨c, as, rfl, _⟩ | ⟨c, as, rfl, _⟩
    · exact ⟨hsane, hok⟩
    · simp [Plain, Atom.steady, Atom.skips] at hp
    · simp [Plain, Atom.steady, Atom.skips] at hp
  cases hf with
  | dollar => simp [Sq.startsLoop] at hl
  | dollar' => simp [Sq.startsLoop] at hl
  | once hp ha hf =>
    left
    simp [clean, single_clean (ha.steady (hrest hp hl hnt).1)]
  | last hp ha =>
    left
    exact single_clean (ha.steady (hrest hp hl hnt).1)
  | @exact _ a m s cs d md hp ha hf hd =>
    right
    obtain ⟨h1, h2⟩ := hrest hp hl hnt
    have hpl := fitsC_plain hf
    refine ⟨a, shift_void hp hpl h2, fun st st' hg hst e hrej => ?_⟩
    have hD := fitsC_does (P := P) hf hkn.rest (capOk_rest hr) hlen hq hn hC (by simp only [Sq.count] at hN; omega)
    obtain ⟨hpos, hil⟩ := hg.nat
    have hs := stepSpec_run cx m ha.one []
    rw [ha.test] at hs
    have e0 := e
    simp only [run, repeatedMatch] at e
    by_cases hc : InClass cx.query a.set (off st) (decimal d).toNat
    · exfalso
      rw [repS_yes hs _ st _ hpos hc, if_neg (by omega)] at e
      have hle := inClass_len hc (by omega)
      have := hD _ st' _ (hg.both (p := ((off st + (decimal d).toNat : Nat) : Int)) true (by have := hg.pos.1; omega) (by unfold Ctx.qend; omega)) rfl (Or.inl rfl) e
      have := (agreesC_yes this).2 (voids_caps _ s hpl h2 _)
      rw [hrej] at this; cases this
    · obtain ⟨r, e1, h3⟩ := repS_no hs _ st _ hpos hc
      rw [e1] at e
      simp only [Option.some.injEq] at e
      have e2 : run cx (.repeated m (decimal d).toNat []) [] st = some st' := by
        simp only [run, repeatedMatch, e1, e]
      have := run_head (cx := cx) (P := P) (.repeated m (decimal d).toNat []) true m (by simp [loopHead, nullables, totals, cleans, ha.steady h1]) [] (by simp) st st' hg hst e2 hrej
      rwa [ha.test] at this
  | @possessive _ a m k s cs hp ha hf hk hc =>
    right
    obtain ⟨h1, h2⟩ := hrest hp hl hnt
    have hpl := fitsC_plain hf
    refine ⟨a, shift_void hp hpl h2, fun st st' hg hst e hrej => ?_⟩
    have hD := fitsC_does (P := P) hf hkn.rest (capOk_rest hr) hlen hq hn hC (by simp only [Sq.count] at hN; omega)
    obtain ⟨hpos, hil⟩ := hg.nat
    have hsn := (hsane hp hr).1
    have hbd := sane_bounds hsn
    have hs := stepSpec_run cx m ha.one []
    rw [ha.test] at hs
    simp only [run, possessiveMatch] at e
    obtain ⟨d, hd1, hd2, hd3, e1, e2⟩ := poss_char hs k.lo k.hiN 0 st (off st) hpos
    rw [hpos] at e
    by_cases hlo : k.lo ≤ d
    · exfalso
      rw [e1 (Or.inr (by omega)), if_neg (hiN_pos hsn).2] at e
      have hle := inClass_len hd2 (by omega)
      have := hD _ st' _ (hg.both (p := ((off st + d : Nat) : Int)) true (by have := hg.pos.1; omega) (by unfold Ctx.qend; omega)) rfl (Or.inl rfl) e
      have := (agreesC_yes this).2 (voids_caps _ s hpl h2 _)
      rw [hrej] at this; cases this
    · obtain ⟨r, e3, h3⟩ := e2 (by omega) (by omega)
      rw [e3] at e
      simp only [Option.some.injEq] at e
      have e2 : run cx (.possessive m k.lo k.hiN []) [] st = some st' := by
        simp only [run, possessiveMatch, hpos, e3, e]
      have := run_head (cx := cx) (P := P) (.possessive m k.lo k.hiN []) true m (by simp [loopHead, nullables, totals, cleans, ha.steady h1, hbd.1, cleans]) [] (by simp) st st' hg hst e2 hrej
      rwa [ha.test] at this
  | @greedy _ a m k s cs hp ha hf hk hmo hc =>
    exfalso
    have h2 := (hrest hp hl hnt).2
    have hok := (knownC_greedy hp hkn hk hmo hc (hsane hp hr).2).1
    rcases (by simpa only [Bool.or_eq_true] using hok : s.solid = true ∨ s.empty = true) with h | h
    · rw [solid_voids s h] at h2; cases h2
    · have h1 := (hrest hp hl hnt).1
      cases s with
      | cons => simp [Sq.empty] at h
      | nil d =>
        cases d <;> simp [Sq.empty] at h
        cases a with
        | group => simp [Plain, Atom.steady, Atom.skips] at hp
        | _ => simp [Sq.startsTree, h1] at hnt
  | @lazy _ a m k s cs hp ha hf hk hmo hc =>
    exfalso
    have h2 := (hrest hp hl hnt).2
    rw [solid_voids s (knownC_lazy hp hkn hk hmo hc (hsane hp hr).2)] at h2; cases h2
  | @cap _ as m s cs hw hf hb hx =>
    exfalso
    have hbare : as.bare = true := by simp only [bodyOk, Bool.and_eq_true] at hb; exact hb.1.1.1
    have key : ∃ a k, as = .last false (.cons a k (.nil false)) ∧ k.fixed = false := by
      unfold Sq.startsLoop at hl
      split at hl
      · rename_i h a k s' heq
        simp only [Sq.cons.injEq, Atom.group.injEq, true_and] at heq
        obtain ⟨rfl, _⟩ := heq
        simp only [Bool.and_eq_true, Bool.not_eq_true'] at hl
        simp only [Alts.bare, Bool.and_eq_true, Bool.not_eq_true'] at hbare
        exact ⟨a, k, by rw [hbare.1], hl.1.2⟩
      · simp at hl
      all_goals (exfalso; grind)
    obtain ⟨a, k, h1, h2⟩ := key
    rw [hx a k h1] at h2
    cases h2
  | @capLoop _ a k m s cs hlo hf hk hb =>
    right
    have h1 : a.steady = true ∧ s.voids = true := by
      simp only [Sq.startsLoop, Bool.and_eq_true, Bool.or_eq_true] at hl
      refine ⟨hl.1.1, ?_⟩
      rcases hl.2 with h | h
      · exact h
      · exfalso
        cases s with
        | nil b => cases b <;> simp [Sq.startsTree, hl.1, h] at hnt
        | cons => simp [Sq.startsTree, hl.1, h] at hnt
    have hpl := fitsC_plain hf
    refine ⟨a, shift_group_void hpl h1.2, fun st st' hg hst e hrej => ?_⟩
    have hN1 : n + 1 + s.count ≤ P.n := by simp only [Sq.count, Atom.count, if_true] at hN; omega
    have hD := fitsC_does (P := P) hf hkn.rest (capOk_rest hr) hlen hq hn hC hN1
    obtain ⟨hpos, hil⟩ := hg.nat
    obtain ⟨m', h2, h3, h4, h5⟩ := loop_heads hlo hk (knownC_loop hkn).1 h1.1 hb
    simp only [run, groupMatch] at e
    split at e
    · simp at e
    · rename_i st1 e1
      have hgd := goodC (P := P) hC hf hkn.rest hn hN1
      have hown : ∀ k ∈ (runs cx cs).map (fun c => c []), GoodK cx P k := by
        obtain ⟨h6, h7⟩ := fitsC_safe hf hkn.rest s.dollar id
        refine own_good (fun f hf => ?_)
        exact runs_good (P := P) hn hC cs h6 (fun i hi => by have := h7 i hi; omega) f hf [] (by simp)
      obtain ⟨hs1, hs2⟩ := loop_safe hlo false
      have hg1 := (run_good (P := P) (nul := false) (by simp) hC m hs1 (by simp [hs2]) _ hown).get hg e1
      split at e
      · exfalso
        rename_i hac
        split at e
        · rw [fitsC_calm hf hkn.rest (knownC_loop hkn).2] at e
          obtain ⟨hpos1, hil1⟩ := hg1.nat
          have := hD _ st' (off st1) (good_cap hC hg hg1 n) hpos1 (Or.inl hac) e
          have := (agreesC_yes this).2 (voids_caps _ s hpl h1.2 _)
          rw [hrej] at this; cases this
        · simp at e
      · simp only [Option.some.injEq] at e
        subst e
        have := run_head (cx := cx) (P := P) m true m' h4 _ (own_rest cx cs) st _ hg hst e1 hrej
        rwa [h2] at this
  | non hw hb hf => simp [Sq.startsLoop] at hl
  | nonLast hw hb => simp [Sq.startsLoop] at hl
  | @repPoss _ c as m k s cs hi hf hk hb =>
    have : (Sq.cons (.group c as) k s).startsLoop = false := by
      cases k <;> first | (simp [Quant.fixed] at hk; done) | simp [Sq.startsLoop]
    rw [this] at hl; cases hl
  | @repGreedy _ c as m k s cs _ _ _ hk =>
    have : (Sq.cons (.group c as) k s).startsLoop = false := by
      cases k <;> first | (simp [Quant.fixed] at hk; done) | simp [Sq.startsLoop]
    rw [this] at hl; cases hl
  | repExact hi hf hk hb => simp [Sq.startsLoop] at hl

/-! ## the search -/

/-- The state is right for the match that begins at `i`. -/
def RightAt (q : List Int) (hat : Bool) (s : Sq) (i : Nat) (st : St) : Prop := AgreesC (capsAt q hat s i) 0 st

theorem sane_facts {hat : Bool} {s : Sq} (h : (Alts.last hat s).capSane = true) :
    s.capOk = true ∧ s.tidy 0 0 = true ∧ s.empty = false ∧ (hat = true → s.takes = true) := by
  simp only [Alts.capSane, Bool.and_eq_true, Bool.not_eq_true', Bool.or_eq_true] at h
  refine ⟨h.1.1.1, h.1.1.2, h.1.2, fun hh => ?_⟩
  rcases h.2 with h | h
  · rw [hh] at h; cases h
  · exact h

theorem sane_safe {cx : Ctx} {f : Bool} {hat : Bool} {s : Sq} {t : Node} (h : RootC f 0 hat s t) (hkn : KnownC f s) (hn : s.dollar = true → cx.post.head? = some 0) : SafeTree cx t := by
  obtain ⟨h1, h2, h3⟩ := root_safe h hkn s.dollar id
  exact safeTree hn h1 (by rw [h2]; exact fun i hi => by have := h3 i hi; omega)

/-- Every attempt decides correctly whether a match begins here, and finds the best one. -/
theorem sane_attempt {cx : Ctx} {f : Bool} {hat : Bool} {s : Sq} {t : Node} (h : RootC f 0 hat s t) (hkn : KnownC f s) (hs : (Alts.last hat s).capSane = true)
    (hlen : cx.query.length < umax) (hq : ∀ c ∈ cx.query, c ∈ allChars) (hn : s.dollar = true → cx.post.head? = some 0) {L p : Int} {st st' : St}
    (hg : Good cx ⟨L, p, groupsOf t, fun _ _ _ => True⟩ st) (hacc : st.accepted = true ∨ st.pos < cx.qend) (e : run cx t [] st = some st') :
    RightAt cx.query hat s (off st) st' := by
  obtain ⟨h1, _, _, h4⟩ := sane_facts hs
  obtain ⟨hp, _⟩ := hg.nat
  refine root_does h hkn h1 h4 hlen hq hn (fun _ _ _ => trivial) (by simp [(root_safe h hkn true (fun _ => rfl)).2.1]) hg hp ?_ e
  rcases hacc with h | h
  · exact Or.inl h
  · right; unfold Ctx.qend at h; omega

theorem regular_search {cx : Ctx} {f : Bool} {hat : Bool} {s : Sq} {t : Node} (h : RootC f 0 hat s t) (hkn : KnownC f s) (hs : (Alts.last hat s).capRegular = true)
    (hlen : cx.query.length < umax) (hq : ∀ c ∈ cx.query, c ∈ allChars) (hn : s.dollar = true → cx.post.head? = some 0) :
    AttemptsG cx t (fun i => capsAt cx.query hat s i ≠ []) (RightAt cx.query hat s) := by
  simp only [Alts.capRegular, Bool.and_eq_true, Bool.or_eq_true] at hs
  obtain ⟨hs, hk⟩ := hs
  have hcap := (sane_facts hs).1
  refine ⟨sane_safe h hkn hn, ?_⟩
  intro L p st st' hL hp hg hst hacc e
  have ha := sane_attempt h hkn hs hlen hq hn hg hacc e
  refine ⟨agreesC_yes ha, fun _ => ha, fun hrej x h1 h2 hx => ?_⟩
  have hno := agreesC_nil ha hrej
  have hskip : startClean t = true ∨ ∃ a, hat = false ∧ Shifts cx.query a s ∧ Trail cx ⟨L, p, groupsOf t, fun _ _ _ => True⟩ a.set (run cx t []) := by
    have hN : 0 + s.count ≤ groupsOf t := by rw [(root_safe h hkn true (fun _ => rfl)).2.1]; omega
    generalize groupsOf t = N at hN
    clear e hno h2 hrej ha hg
    induction h with
    | hat h1 hf hne => left; simp [startClean, clean]
    | @plain t h1 hf =>
      rcases hk with (hk | hk) | hk
      · rw [h1] at hk; cases hk
      · left
        have := (fitsC_solid hf hk).2.1
        simp only [cleans, Bool.and_true] at this
        exact startClean_of_clean _ this
      · cases htr : s.startsTree with
        | true =>
          rcases starts_loop hf hkn hcap htr with h | ⟨m, a, h2, h3, h4⟩
          · exact Or.inl (startClean_of_clean _ h)
          · refine Or.inr ⟨a, h1, h4 _, ?_⟩
            rw [← h3]
            exact run_head t true m h2 [] (by simp)
        | false =>
          rcases starts_void (P := ⟨L, p, N, fun _ _ _ => True⟩) hf hkn hcap hk htr hlen hq hn (fun _ _ _ => trivial) hN with h | ⟨a, h2, h3⟩
          · exact Or.inl (startClean_of_clean _ h)
          · exact Or.inr ⟨a, h1, h2, h3⟩
    | @wrap t _ ih =>
      rcases ih with h | ⟨a, h2, h3, h4⟩
      · exact Or.inl (by simpa [startClean] using h)
      · refine Or.inr ⟨a, h2, h3, ?_⟩
        intro st st' hg hst e
        rw [run_alt_one] at e
        exact h4 st st' hg hst e
  rcases hskip with hsk | ⟨a, rfl, hsh, htrail⟩
  · obtain ⟨d, hd, hin⟩ := run_startClean (p := fun _ => false) t hsk [] (by simp) st st' hg hst e hrej
    have : d = 0 := by
      cases d with
      | zero => rfl
      | succ d => obtain ⟨c, _, hc⟩ := hin 0 (by omega); simp at hc
    subst this
    have : x = off st := by unfold off at h1 h2 ⊢; unfold off at hd; omega
    rw [this] at hx; exact hx hno
  · obtain ⟨d, hd, hin⟩ := htrail st st' hg hst e hrej
    have hxe : x = off st + (x - off st) := by omega
    have hle : x - off st ≤ d := by
      have : off st' = off st + d := by
        have : st'.pos = ((off st + d : Nat) : Int) := hd
        show st'.pos.toNat = off st + d
        omega
      omega
    simp only [capsAt, Bool.false_and, Bool.false_eq_true, if_false] at hx hno
    rw [hxe] at hx
    exact hsh _ _ (inClass_mono hin hle) hx hno

/-- What holds of every accepted attempt holds of every accepted result. -/
theorem nextLoop_hit {cx : Ctx} {t : Node} {R : Nat → St → Prop} (hs : SafeTree cx t)
    (h : ∀ L s st st', 0 ≤ L → L ≤ s → Good cx ⟨L, s, groupsOf t, fun _ _ _ => True⟩ st → st.start = st.pos →
      (st.accepted = true ∨ st.pos < cx.qend) → run cx t [] st = some st' → R (off st) st') {L : Int} (hL : 0 ≤ L) : ∀ (f : Nat) (st st' : St),
    L ≤ st.start → st.start = st.pos → st.groups.length = groupsOf t → (∀ v ∈ st.groups, ViewIn cx L v) →
    nextLoop cx (run cx t []) f st = .ok st' → st'.accepted = true → ∃ s : Nat, st'.start = s ∧ off st ≤ s ∧ R s st' := by
  intro f
  induction f with
  | zero =>
    intro st st' h1 _ hlen hv e ha
    simp only [nextLoop] at e
    split at e
    · simp at e
    · cases e; simp at ha
  | succ f ih =>
    intro st st' h1 hst hlen hv e hacc
    simp only [nextLoop] at e
    split at e
    · rename_i hlt
      split at e
      · simp at e
      · rename_i st1 e1
        have hg : Good cx ⟨L, st.start, groupsOf t, fun _ _ _ => True⟩ st :=
          ⟨rfl, ⟨hL, h1⟩, ⟨by simp only; omega, by omega⟩, hlen, hv, fun _ _ _ _ => trivial⟩
        have g1 := (hs L st.start hL h1).get hg e1
        have hs1 := g1.start; have hp := g1.pos
        simp only at hs1 hp
        obtain ⟨hn, _⟩ := hg.nat
        split at e
        · cases e
          exact ⟨off st, by omega, Nat.le_refl _, h L st.start st _ hL h1 hg hst (Or.inr (by omega)) e1⟩
        · obtain ⟨s, h2, h3, h4⟩ := ih { st1 with start := st1.pos + 1, pos := st1.pos + 1 } st' (by simp only; omega) rfl g1.len g1.views e hacc
          have ho : off { st1 with start := st1.pos + 1, pos := st1.pos + 1 } = (st1.pos + 1).toNat := rfl
          rw [ho] at h3
          refine ⟨s, h2, ?_, h4⟩
          have : off st = st.pos.toNat := rfl
          omega
    · cases e; simp at hacc

theorem next_hit {cx : Ctx} {t : Node} {R : Nat → St → Prop} (hs : SafeTree cx t)
    (h : ∀ L s st st', 0 ≤ L → L ≤ s → Good cx ⟨L, s, groupsOf t, fun _ _ _ => True⟩ st → st.start = st.pos →
      (st.accepted = true ∨ st.pos < cx.qend) → run cx t [] st = some st' → R (off st) st') {f : Nat} {st st' : St} (h0 : 0 ≤ st.pos)
    (e : next cx t f st = .ok st') (ha : st'.accepted = true) : ∃ s : Nat, st'.start = s ∧ off st ≤ s ∧ R s st' :=
  nextLoop_hit hs h (L := st.pos) h0 f { st with groups := List.replicate (groupsOf t) none, start := st.pos } st' (by simp) rfl (by simp) (replicate_views cx _ _) e ha

theorem construct_hit {cx : Ctx} {t : Node} {R : Nat → St → Prop} (hs : SafeTree cx t)
    (h : ∀ L s st st', 0 ≤ L → L ≤ s → Good cx ⟨L, s, groupsOf t, fun _ _ _ => True⟩ st → st.start = st.pos →
      (st.accepted = true ∨ st.pos < cx.qend) → run cx t [] st = some st' → R (off st) st') {f : Nat} {st' : St}
    (e : construct cx t f = .ok st') : (st'.accepted = true → ∃ s : Nat, st'.start = s ∧ R s st') ∧
      ∃ st1, run cx t [] (initSt t) = some st1 ∧ R 0 st1 ∧ (st1.accepted = true → st' = st1) := by
  simp only [construct] at e
  split at e
  · simp at e
  · rename_i st1 e1
    have hq : 0 ≤ cx.qend := by simp [Ctx.qend]
    have hg : Good cx ⟨0, 0, groupsOf t, fun _ _ _ => True⟩ (initSt t) :=
      ⟨rfl, ⟨by simp, by simp⟩, ⟨by simp [initSt], by simp [initSt, hq]⟩, by simp [initSt], replicate_views cx _ _, fun _ _ _ _ => trivial⟩
    have hr := h 0 0 (initSt t) st1 (by omega) (by omega) hg rfl (Or.inl rfl) e1
    have g1 := (hs 0 0 (by omega) (by omega)).get hg e1
    have hst := g1.start; have hp := g1.pos
    simp only at hst hp
    have h00 : off (initSt t) = 0 := rfl
    rw [h00] at hr
    split at e
    · cases e
      exact ⟨fun _ => ⟨0, by simpa using hst, hr⟩, _, e1, hr, fun _ => rfl⟩
    · rename_i hna
      refine ⟨fun ha => ?_, st1, e1, hr, fun h => absurd h hna⟩
      obtain ⟨s, h1, _, h2⟩ := next_hit hs h (by omega) e ha
      exact ⟨s, h1, h2⟩

end ERegex

import Verif.Proofs.CaptureSearch
/-!
# Captures: several alternatives outside a group
-/
set_option autoImplicit false
namespace ERegex
open ERegex.Spec ERegex.Props

/-! ## a failed attempt captures nothing -/

/-- Captures nothing. -/
def Mute (k : K) : Prop := ∀ st st', k st = some st' → st'.groups = st.groups
/-- Captures nothing when it fails. -/
def Meek (k : K) : Prop := ∀ st st', k st = some st' → st'.accepted = false → st'.groups = st.groups

theorem Mute.meek {k : K} (h : Mute k) : Meek k := fun st st' e _ => h st st' e

theorem run_mute (cx : Ctx) {t : Node} (h : slots t = []) : Mute (run cx t []) := by
  intro st st' e
  refine List.ext_getElem? (fun j => run_groups_frame cx t st st' e j (by simp [h]))

mutual
/-- Trees that capture nothing when they fail. -/
def meek : Node → Bool
  | .exact .. | .range .. | .space | .word | .any | .bos | .eol => true
  | .negated m => (slots m).isEmpty
  | .simple m cs | .greedy m _ _ cs | .lazy m _ _ cs | .possessive m _ _ cs | .repeated m _ cs => (slots m).isEmpty && meeks cs
  | .alt cs => meeks cs
  | .group m _ cs => cs.isEmpty && (slots m).isEmpty
/-- All of a list. -/
def meeks : List Node → Bool
  | [] => true
  | c :: cs => meek c && meeks cs
end

theorem meek_dfs : ∀ (cs : List M), (∀ f ∈ cs, Meek (f [])) → Meek (dfs cs [])
  | [], _ => by intro st st' e _; simp only [dfs, Option.some.injEq] at e; rw [e]
  | [f], h => h f (by simp)
  | f :: g :: fs, h => by
    intro st st' e ha
    simp only [dfs] at e
    split at e
    · simp at e
    · rename_i st1 e1
      split at e
      · rename_i hacc; cases e; rw [ha] at hacc; cases hacc
      · rename_i hrej
        have h1 := h f (by simp) st st1 e1 (by simpa using hrej)
        have := meek_dfs (g :: fs) (fun k hk => h k (by simp [hk])) _ st' e ha
        rw [this]; exact h1

theorem mute_rep {m : K} (h : Mute m) : ∀ (n : Nat) (st : St) (b : Bool) (st' : St), repLoop m n st = some (b, st') → st'.groups = st.groups
  | 0, st, b, st', e => by simp only [repLoop, Option.some.injEq, Prod.mk.injEq] at e; rw [e.2]
  | n + 1, st, b, st', e => by
    simp only [repLoop] at e
    split at e
    · simp at e
    · rename_i st1 e1
      split at e
      · rw [mute_rep h n st1 b st' e]; exact h _ _ e1
      · cases e; exact h _ _ e1

theorem mute_grow {m : K} (h : Mute m) : ∀ (n k : Nat) (st : St) (k' : Nat) (st' : St), growLoop m n k st = some (k', st') → st'.groups = st.groups
  | 0, k, st, k', st', e => by simp only [growLoop, Option.some.injEq, Prod.mk.injEq] at e; rw [e.2]
  | n + 1, k, st, k', st', e => by
    simp only [growLoop] at e
    split at e
    · simp at e
    · rename_i st1 e1
      split at e
      · rw [mute_grow h n _ st1 k' st' e]; exact h _ _ e1
      · cases e; exact h st st1 e1

theorem mute_scan {m : K} (h : Mute m) : ∀ (n : Nat) (i : Int) (st st' : St), scanBack m n i st = some st' → st'.groups = st.groups
  | 0, i, st, st', e => by simp only [scanBack, Option.some.injEq] at e; rw [e]
  | n + 1, i, st, st', e => by
    simp only [scanBack] at e
    split at e
    · simp at e
    · rename_i st1 e1
      have h1 : st1.groups = st.groups := h { st with pos := i } _ e1
      split at e
      · cases e; exact h1
      · rw [mute_scan h n _ st1 st' e]; exact h1

theorem meek_bt {bt m : K} (hb : Meek bt) (h : Mute m) (s : Int) : ∀ (n : Nat) (st : St) (b : Bool) (st' : St), btLoop bt m s n st = some (b, st') →
    (b = false ∨ st'.accepted = false) → st'.groups = st.groups
  | 0, st, b, st', e, _ => by simp only [btLoop, Option.some.injEq, Prod.mk.injEq] at e; rw [e.2]
  | n + 1, st, b, st', e, ha => by
    simp only [btLoop] at e
    split at e
    · simp at e
    · rename_i st1 e1
      split at e
      · rename_i hacc
        simp only [Option.some.injEq, Prod.mk.injEq] at e
        obtain ⟨rfl, rfl⟩ := e
        rcases ha with ha | ha
        · cases ha
        · rw [ha] at hacc; cases hacc
      · rename_i hrej
        have h1 := hb _ _ e1 (by simpa using hrej)
        split at e
        · simp at e
        · rename_i st2 e2
          rw [meek_bt hb h s n st2 b st' e ha, mute_scan h _ _ _ _ e2, h1]

theorem meek_backtrack {cs : List M} (h : ∀ f ∈ cs, Meek (f [])) : Meek (greedyBacktrack cs []) := by
  intro st st' e ha
  simp only [greedyBacktrack] at e
  split at e
  · simp only [dfsInj, List.map_nil, dfs, Option.some.injEq] at e
    subst e; rfl
  · exact meek_dfs cs h st st' e ha

theorem meek_greedy {m : K} (hm : Mute m) {lo hi : Nat} {cs : List M} (h : ∀ f ∈ cs, Meek (f [])) : Meek (greedyMatch m lo hi cs []) := by
  intro st st' e ha
  simp only [greedyMatch] at e
  split at e
  · simp at e
  · rename_i st1 e1; cases e; exact mute_rep hm _ _ _ _ e1
  · rename_i st1 e1
    have h1 := mute_rep hm _ _ _ _ e1
    split at e
    · simp at e
    · rename_i k st2 e2
      have h2 := mute_grow hm _ _ _ _ _ e2
      split at e
      · simp at e
      · rename_i st3 e3
        cases e
        rw [meek_bt (meek_backtrack h) hm _ _ _ _ _ e3 (Or.inr ha), h2, h1]
      · rename_i st3 e3
        have h3 := meek_bt (meek_backtrack h) hm _ _ _ _ _ e3 (Or.inl rfl)
        rw [meek_dfs cs h _ st' e ha]
        show st3.groups = st.groups
        rw [h3, h2, h1]

theorem meek_optional {m : K} (hm : Mute m) {w : Nat} {cs : List M} (h : ∀ f ∈ cs, Meek (f [])) : Meek (optionalMatch m w cs []) := by
  intro st st' e ha
  simp only [optionalMatch] at e
  split at e
  · simp at e
  · rename_i st1 e1
    have h1 := hm _ _ e1
    split at e
    · simp at e
    · rename_i st2 e2
      split at e
      · rename_i hc
        simp only [Bool.and_eq_true, Bool.not_eq_true'] at hc
        rw [meek_backtrack h _ st' e ha]
        show st2.groups = st.groups
        rw [meek_backtrack h _ _ e2 hc.1, h1]
      · cases e
        rw [meek_backtrack h _ _ e2 ha, h1]

theorem meek_lazyLoop {cx : Ctx} {m : K} (hm : Mute m) {cs : List M} (h : ∀ f ∈ cs, Meek (f [])) (s : Int) : ∀ (n : Nat) (st : St) (b : Bool) (st' : St),
    lazyLoop cx m cs [] s n st = some (b, st') → (b = false ∨ st'.accepted = false) → st'.groups = st.groups
  | 0, st, b, st', e, _ => by simp only [lazyLoop, Option.some.injEq, Prod.mk.injEq] at e; rw [e.2]
  | n + 1, st, b, st', e, ha => by
    simp only [lazyLoop] at e
    split at e
    · split at e
      · simp only [dfsInj, List.map_nil, dfs] at e
        split at e
        · cases e; rfl
        · split at e
          · simp at e
          · rename_i st2 e2
            have h2 : st2.groups = st.groups := hm _ _ e2
            split at e
            · rw [meek_lazyLoop hm h s n st2 b st' e ha]; exact h2
            · cases e; exact h2
      · split at e
        · simp at e
        · rename_i st1 e1
          split at e
          · rename_i hacc
            simp only [Option.some.injEq, Prod.mk.injEq] at e
            obtain ⟨rfl, rfl⟩ := e
            rcases ha with ha | ha
            · cases ha
            · rw [ha] at hacc; cases hacc
          · rename_i hrej
            have h1 := meek_dfs cs h _ _ e1 (by simpa using hrej)
            split at e
            · simp at e
            · rename_i st2 e2
              have h2 := (hm _ _ e2).trans h1
              split at e
              · rw [meek_lazyLoop hm h s n st2 b st' e ha]; exact h2
              · cases e; exact h2
    · cases e; rfl

theorem meek_lazy {cx : Ctx} {m : K} (hm : Mute m) {lo hi : Nat} {cs : List M} (h : ∀ f ∈ cs, Meek (f [])) : Meek (lazyMatch cx m lo hi cs []) := by
  intro st st' e ha
  simp only [lazyMatch] at e
  split at e
  · simp at e
  · rename_i st1 e1; cases e; exact mute_rep hm _ _ _ _ e1
  · rename_i st1 e1
    have h1 := mute_rep hm _ _ _ _ e1
    split at e
    · simp at e
    · rename_i st2 e2
      cases e
      rw [meek_lazyLoop hm h _ _ _ _ _ e2 (Or.inr ha), h1]
    · rename_i st2 e2
      rw [meek_dfs cs h _ st' e ha, meek_lazyLoop hm h _ _ _ _ _ e2 (Or.inl rfl), h1]

theorem mute_poss {m : K} (hm : Mute m) (lo : Nat) : ∀ (n i : Nat) (l : Int) (st : St) (b : Bool) (st' : St), possLoop m lo n i l st = some (b, st') → st'.groups = st.groups
  | 0, i, l, st, b, st', e => by simp only [possLoop, Option.some.injEq, Prod.mk.injEq] at e; rw [e.2]
  | n + 1, i, l, st, b, st', e => by
    simp only [possLoop] at e
    split at e
    · simp at e
    · rename_i st1 e1
      have h1 := hm _ _ e1
      split at e
      · rw [mute_poss hm lo n _ _ st1 b st' e]; exact h1
      · split at e
        · cases e; exact h1
        · cases e; exact h1

mutual
theorem run_meek (cx : Ctx) : ∀ (t : Node), meek t = true → Meek (run cx t [])
  | .exact .., _ | .range .., _ | .space, _ | .word, _ | .any, _ | .bos, _ | .eol, _ => (run_mute cx (by simp [slots])).meek
  | .negated m, h => (run_mute cx (by simpa [slots, meek] using h)).meek
  | .simple m cs, h => by
    simp only [meek, Bool.and_eq_true, List.isEmpty_iff] at h
    intro st st' e ha
    simp only [run, simpleMatch] at e
    split at e
    · simp at e
    · rename_i st1 e1
      have h1 := run_mute cx h.1 _ _ e1
      split at e
      · split at e
        · simp at e
        · rename_i st2 e2
          split at e
          · rename_i hacc; cases e; rw [ha] at hacc; cases hacc
          · rename_i hrej
            cases e
            rw [← h1]
            exact meek_dfs _ (runs_meek cx cs h.2) st1 st2 e2 (by simpa using hrej)
      · cases e; exact h1
  | .alt cs, h => by simp only [run]; exact meek_dfs _ (runs_meek cx cs h)
  | .greedy m lo hi cs, h => by
    simp only [meek, Bool.and_eq_true, List.isEmpty_iff] at h
    simp only [run]
    split
    · exact meek_optional (run_mute cx h.1) (runs_meek cx cs h.2)
    · exact meek_greedy (run_mute cx h.1) (runs_meek cx cs h.2)
  | .lazy m lo hi cs, h => by
    simp only [meek, Bool.and_eq_true, List.isEmpty_iff] at h
    simp only [run]
    exact meek_lazy (run_mute cx h.1) (runs_meek cx cs h.2)
  | .possessive m lo hi cs, h => by
    simp only [meek, Bool.and_eq_true, List.isEmpty_iff] at h
    intro st st' e ha
    simp only [run, possessiveMatch] at e
    split at e
    · simp at e
    · rename_i st1 e1; cases e; exact mute_poss (run_mute cx h.1) _ _ _ _ _ _ _ e1
    · rename_i st1 e1
      rw [meek_dfs _ (runs_meek cx cs h.2) _ st' e ha]
      exact mute_poss (run_mute cx h.1) _ _ _ _ _ _ _ e1
  | .repeated m n cs, h => by
    simp only [meek, Bool.and_eq_true, List.isEmpty_iff] at h
    intro st st' e ha
    simp only [run, repeatedMatch] at e
    split at e
    · simp at e
    · rename_i st1 e1; cases e; exact mute_rep (run_mute cx h.1) _ _ _ _ e1
    · rename_i st1 e1
      rw [meek_dfs _ (runs_meek cx cs h.2) _ st' e ha]
      exact mute_rep (run_mute cx h.1) _ _ _ _ e1
  | .group m idx cs, h => by
    simp only [meek, Bool.and_eq_true, List.isEmpty_iff] at h
    obtain ⟨rfl, h⟩ := h
    intro st st' e ha
    simp only [run, groupMatch, runs, List.map_nil, dfs] at e
    split at e
    · simp at e
    · rename_i st1 e1
      have h1 := run_mute cx h _ _ e1
      split at e
      · rename_i hacc
        split at e
        · cases e; simp only at ha; rw [ha] at hacc; cases hacc
        · simp at e
      · cases e; exact h1
theorem runs_meek (cx : Ctx) : ∀ (cs : List Node), meeks cs = true → ∀ f ∈ runs cx cs, Meek (f [])
  | [], _ => by simp [runs]
  | c :: cs, h => by
    simp only [meeks, Bool.and_eq_true] at h
    intro f hf
    simp only [runs, List.mem_cons] at hf
    rcases hf with rfl | hf
    · exact run_meek cx c h.1
    · exact runs_meek cx cs h.2 f hf
end

/-! ## the trees -/

mutual
theorem meek_of_slots : ∀ (t : Node), slots t = [] → meek t = true
  | .exact .., _ | .range .., _ | .space, _ | .word, _ | .any, _ | .bos, _ | .eol, _ => rfl
  | .negated m, h => by simpa [meek, slots] using h
  | .simple m cs, h | .greedy m _ _ cs, h | .lazy m _ _ cs, h | .possessive m _ _ cs, h | .repeated m _ cs, h => by
    simp only [slots, List.append_eq_nil_iff] at h
    simp [meek, h.1, meeks_of_slots cs h.2]
  | .alt cs, h => by simp only [slots] at h; simp [meek, meeks_of_slots cs h]
  | .group .., h => by simp [slots] at h
theorem meeks_of_slots : ∀ (cs : List Node), slotss cs = [] → meeks cs = true
  | [], _ => rfl
  | c :: cs, h => by
    simp only [slotss, List.append_eq_nil_iff] at h
    simp [meeks, meek_of_slots c h.1, meeks_of_slots cs h.2]
end

theorem late_cap {as : Alts} {k : Quant} {s : Sq} (h : (Sq.cons (.group true as) k s).late = true) : k = .once ∧ s = .nil false := by
  cases k <;> first | (simp [Sq.late] at h; done) | skip
  cases s with
  | nil d => cases d <;> simp_all [Sq.late]
  | cons => simp [Sq.late] at h

theorem fitsC_meek {f : Bool} {n : Nat} {s : Sq} {cs : List Node} (hf : FitsC f n s cs) (h : s.late = true) : meeks cs = true := by
  have ws : ∀ {as : Alts} {m : Node}, Whole f as.bodies m → slots m = [] := fun hw => (whole_safe hw true (fun _ _ _ => rfl)).2
  have is : ∀ {n : Nat} {as : Alts} {m : Node}, Inner f n as false m → slots m = [] := by
    intro n as m h
    cases h with
    | simple hw => simp [slots, slotss, ws hw]
    | bare hw => exact ws hw
  have atom : ∀ {a : Atom} {k : Quant} {s : Sq}, Plain a → (Sq.cons a k s).late = true → s.late = true := by
    intro a k s hp h
    cases a <;> first | (simpa only [Sq.late] using h) | simp [Plain, Atom.steady, Atom.skips] at hp
  induction hf with
  | nil => rfl
  | dollar => rfl
  | dollar' => rfl
  | once hp ha hf ih => simp [meeks, meek, ha.noslot, ih (atom hp h)]
  | last hp ha => simp [meeks, meek_of_slots _ ha.noslot]
  | exact hp ha hf hd ih => simp [meeks, meek, ha.noslot, ih (atom hp h)]
  | possessive hp ha hf _ _ ih => simp [meeks, meek, ha.noslot, ih (atom hp h)]
  | greedy hp ha hf _ _ _ ih => simp [meeks, meek, ha.noslot, ih (atom hp h)]
  | lazy hp ha hf _ _ _ ih => simp [meeks, meek, ha.noslot, ih (atom hp h)]
  | cap hw hf hb _ ih =>
    obtain ⟨_, rfl⟩ := late_cap h
    cases hf
    simp [meeks, meek, ws hw]
  | capLoop hl hf hk hb ih =>
    obtain ⟨_, rfl⟩ := late_cap h
    cases hf
    simp [meeks, meek, (loop_safe hl true).2]
  | non hw hf hb ih => simp [meeks, meek, ws hw, ih (by simpa only [Sq.late] using h)]
  | nonLast hw hb => simp [meeks, meek_of_slots _ (ws hw)]
  | @repPoss _ c as m k s cs hi hf hk hb ih =>
    cases c with
    | true => obtain ⟨rfl, _⟩ := late_cap h; simp [Quant.fixed] at hk
    | false => simp [meeks, meek, is hi, ih (by cases k <;> simpa only [Sq.late] using h)]
  | @repGreedy _ c as m k s cs _ hi hf hk _ hb ih =>
    cases c with
    | true => obtain ⟨rfl, _⟩ := late_cap h; simp [Quant.fixed] at hk
    | false => simp [meeks, meek, is hi, ih (by cases k <;> simpa only [Sq.late] using h)]
  | @repExact _ c as m d md s cs hi hf _ hb ih =>
    cases c with
    | true => have := (late_cap h).1; cases this
    | false => simp [meeks, meek, is hi, ih (by simpa only [Sq.late] using h)]

theorem root_meek {f : Bool} {n : Nat} {hat : Bool} {s : Sq} {t : Node} (h : RootC f n hat s t) (hl : s.late = true) : meek t = true := by
  induction h with
  | hat h1 hf hne => simp [meek, slots, fitsC_meek hf hl]
  | plain h1 hf => simpa [meeks] using fitsC_meek hf hl
  | wrap _ ih => simpa [meek, meeks] using ih

/-- A loop in a group at the end of an alternative. -/
theorem loop_clean {a : Atom} {k : Quant} {m : Node} (h : Loop true a k (.nil false) m) (ha : a.steady = true) (hk : k.lo ≤ 1) : clean m = true := by
  have hno : meets a.shown (Sq.nil false).looks = false := by simp [meets, Sq.looks]
  induction h with
  | possessive hm _ =>
    have := single_clean (hm.steady ha)
    have h1 : k.lo = 0 ∨ k.lo = 1 := by omega
    simp only [clean, totals, cleans, this, Bool.and_true, Bool.true_and, Bool.or_eq_true, decide_eq_true_eq]
    exact h1
  | greedy hm _ h => rw [h rfl] at hno; cases hno
  | lazy hm _ h => rw [h rfl] at hno; cases hno
  | wrap _ ih => simpa [clean, cleans] using ih

theorem root_clean {n : Nat} {hat : Bool} {s : Sq} {t : Node} (h : RootC true n hat s t) (hl : hat = true ∨ s.returns = true) : clean t = true := by
  induction h with
  | hat h1 hf hne => simp [clean]
  | @plain t h1 hf =>
    have hr : s.returns = true := by
      rcases hl with h | h
      · rw [h] at h1; cases h1
      · exact h
    unfold Sq.returns at hr
    split at hr
    · rename_i as
      simp only [Bool.or_eq_true] at hr
      have solid : as.list.all Sq.steadyHead = true → ∀ {m : Node}, Whole true as.bodies m → clean m = true := fun ha m hw => by
        rw [List.all_eq_true] at ha
        exact (whole_firm hw (bodies_ne as) (fun x hx => ha _ (bodies_mem as x hx))).1
      have loops : ∀ {a : Atom} {k : Quant}, (Alts.last false (.cons a k (.nil false))).loops = true → a.steady = true ∧ k.fixed = false ∧ k.lo ≤ 1 := fun h => by
        simpa [Alts.loops, and_assoc] using h
      cases hf with
      | cap hw hf hb hx =>
        cases hf
        rcases hr with hr | hr
        · simp [clean, totals, solid hr hw]
        · exfalso
          unfold Alts.loops at hr
          split at hr
          · rename_i x a k
            simp only [bodyOk, Bool.and_eq_true, Alts.bare, Bool.not_eq_true'] at hb
            have := hb.1.1.1.1
            subst this
            simp [hx a k rfl] at hr
          · cases hr
      | @capLoop _ a k m s cs hl hf hk hb =>
        cases hf
        rcases hr with hr | hr
        · exfalso
          simp only [Alts.list, List.all_cons, List.all_nil, Bool.and_true] at hr
          cases k <;> simp [Sq.steadyHead, Quant.fixed] at hr hk
        · obtain ⟨h1, h2, h3⟩ := loops hr
          simp [clean, totals, loop_clean hl h1 h3]
      | repPoss hi hf hk hb => simp [Quant.fixed] at hk
      | repGreedy hx => cases hx
      | once hp => simp [Plain, Atom.steady, Atom.skips] at hp
      | last hp => simp [Plain, Atom.steady, Atom.skips] at hp
      | possessive hp => simp [Plain, Atom.steady, Atom.skips] at hp
      | greedy hp => simp [Plain, Atom.steady, Atom.skips] at hp
      | lazy hp => simp [Plain, Atom.steady, Atom.skips] at hp
    · have := (fitsC_solid hf hr).2.1
      simpa only [cleans, Bool.and_true] using this
  | wrap _ ih => simpa [clean, cleans] using ih

mutual
theorem nextIdx_of_slots : ∀ (t : Node), slots t = [] → nextIdx t = 0
  | .exact .., _ | .range .., _ | .space, _ | .word, _ | .any, _ | .bos, _ | .eol, _ => rfl
  | .negated m, h => by simp only [slots] at h; simp [nextIdx, nextIdx_of_slots m h]
  | .simple m cs, h | .greedy m _ _ cs, h | .lazy m _ _ cs, h | .possessive m _ _ cs, h | .repeated m _ cs, h => by
    simp only [slots, List.append_eq_nil_iff] at h
    simp [nextIdx, nextIdx_of_slots m h.1, nextIdxs_of_slots cs h.2]
  | .alt cs, h => by simp only [slots] at h; simp [nextIdx, nextIdxs_of_slots cs h]
  | .group .., h => by simp [slots] at h
theorem nextIdxs_of_slots : ∀ (cs : List Node), slotss cs = [] → nextIdxs cs = 0
  | [], _ => rfl
  | c :: cs, h => by
    simp only [slotss, List.append_eq_nil_iff] at h
    simp [nextIdxs, nextIdx_of_slots c h.1, nextIdxs_of_slots cs h.2]
end

theorem fitsC_next {f : Bool} {n : Nat} {s : Sq} {cs : List Node} (hf : FitsC f n s cs) (h : s.late = true) :
    nextIdxs cs = if s.count = 0 then 0 else n + 1 := by
  have ws : ∀ {as : Alts} {m : Node}, Whole f as.bodies m → nextIdx m = 0 := fun hw => nextIdx_of_slots _ (whole_safe hw true (fun _ _ _ => rfl)).2
  have wc : ∀ {capture : Bool} {as : Alts} {s : Sq}, bodyOk capture as s = true → as.count = 0 := by
    intro capture as s hb
    simp only [bodyOk, Bool.and_eq_true] at hb
    exact (alts_ways as (body_flats hb.1.1.2) [] 0 0 (fun _ => none)).2
  have is : ∀ {n : Nat} {as : Alts} {m : Node}, Inner f n as false m → nextIdx m = 0 := by
    intro n as m h
    cases h with
    | simple hw => simp [nextIdx, nextIdxs, ws hw]
    | bare hw => exact ws hw
  have atom : ∀ {a : Atom} {k : Quant} {s : Sq}, Plain a → (Sq.cons a k s).late = true → s.late = true ∧ (Sq.cons a k s).count = s.count := by
    intro a k s hp h
    refine ⟨?_, by simp [Sq.count, plain_count hp]⟩
    cases a <;> first | (simpa only [Sq.late] using h) | simp [Plain, Atom.steady, Atom.skips] at hp
  have ra : ∀ {a : Atom} {m : Node}, Atomic a m → nextIdx m = 0 := fun ha => nextIdx_of_slots _ ha.noslot
  induction hf with
  | nil => rfl
  | dollar => rfl
  | dollar' => rfl
  | once hp ha hf ih => obtain ⟨h1, h2⟩ := atom hp h; simp [nextIdxs, nextIdx, ra ha, ih h1, h2]
  | last hp ha => simp [nextIdxs, ra ha, Sq.count, plain_count hp]
  | exact hp ha hf hd ih => obtain ⟨h1, h2⟩ := atom hp h; simp [nextIdxs, nextIdx, ra ha, ih h1, h2]
  | possessive hp ha hf _ _ ih => obtain ⟨h1, h2⟩ := atom hp h; simp [nextIdxs, nextIdx, ra ha, ih h1, h2]
  | greedy hp ha hf _ _ _ ih => obtain ⟨h1, h2⟩ := atom hp h; simp [nextIdxs, nextIdx, ra ha, ih h1, h2]
  | lazy hp ha hf _ _ _ ih => obtain ⟨h1, h2⟩ := atom hp h; simp [nextIdxs, nextIdx, ra ha, ih h1, h2]
  | cap hw hf hb _ ih => simp [nextIdxs, nextIdx, Sq.count, Atom.count, Nat.add_assoc]
  | capLoop hl hf hk hb ih => simp [nextIdxs, nextIdx, Sq.count, Atom.count, Nat.add_assoc]
  | non hw hf hb ih => simp [nextIdxs, nextIdx, ws hw, ih (by simpa only [Sq.late] using h), Sq.count, Atom.count, wc hb]
  | nonLast hw hb => simp [nextIdxs, ws hw, Sq.count, Atom.count, wc hb]
  | @repPoss _ c as m k s cs hi hf hk hb ih =>
    cases c with
    | true => obtain ⟨rfl, _⟩ := late_cap h; simp [Quant.fixed] at hk
    | false => simp [nextIdxs, nextIdx, is hi, ih (by cases k <;> simpa only [Sq.late] using h), Sq.count, Atom.count, rep_count hb]
  | @repGreedy _ c as m k s cs _ hi hf hk _ hb ih =>
    cases c with
    | true => obtain ⟨rfl, _⟩ := late_cap h; simp [Quant.fixed] at hk
    | false => simp [nextIdxs, nextIdx, is hi, ih (by cases k <;> simpa only [Sq.late] using h), Sq.count, Atom.count, rep_count hb]
  | @repExact _ c as m d md s cs hi hf _ hb ih =>
    cases c with
    | true => have := (late_cap h).1; cases this
    | false => simp [nextIdxs, nextIdx, is hi, ih (by simpa only [Sq.late] using h), Sq.count, Atom.count, rep_count hb]

theorem root_next {f : Bool} {n : Nat} {hat : Bool} {s : Sq} {t : Node} (h : RootC f n hat s t) (hl : s.late = true) :
    nextIdx t = if s.count = 0 then 0 else n + 1 := by
  induction h with
  | hat h1 hf hne => simp [nextIdx, fitsC_next hf hl]
  | plain h1 hf => simpa [nextIdxs] using fitsC_next hf hl
  | wrap _ ih => simpa [nextIdx, nextIdxs] using ih

/-- The trees of the alternatives; `n`: number of the first group. -/
inductive RowC (f : Bool) : Nat → Alts → List Node → Prop
  | last {n : Nat} {hat : Bool} {s : Sq} {t : Node} : RootC f n hat s t → RowC f n (.last hat s) [t]
  | more {n : Nat} {hat : Bool} {s : Sq} {as : Alts} {t : Node} {ts : List Node} : RootC f n hat s t → RowC f (n + s.count) as ts →
      RowC f n (.more hat s as) (t :: ts)

theorem row_opts {f : Bool} {n : Nat} {as : Alts} {ts : List Node} (h : RowC f n as ts) : RowC true n as (opts ts) := by
  induction h with
  | last h => exact .last (root_opt h)
  | more h _ ih => exact .more (root_opt h) ih

theorem altCap_facts {hat : Bool} {s : Sq} (h : altCap hat s = true) :
    s.capOk = true ∧ s.empty = false ∧ (hat = true → s.takes = true) ∧ (hat = true ∨ s.returns = true) ∧ s.late = true := by
  simp only [altCap, Bool.and_eq_true, Bool.or_eq_true, Bool.not_eq_true'] at h
  refine ⟨h.1.1.1.1, h.1.1.1.2, fun hh => ?_, h.1.2, h.2⟩
  rcases h.1.1.2 with h | h
  · rw [hh] at h; cases h
  · exact h

theorem root_build {hat : Bool} {s : Sq} (h : altCap hat s = true) (hc : ∀ x ∈ s.spell, x ∈ allChars) {g n : Nat} (ht : s.tidy g n = true) :
    ∃ t, RootC false n hat s t ∧ H none (hatToks hat ++ s.toks) g = some t := by
  obtain ⟨h0, he, _⟩ := altCap_facts h
  obtain ⟨h1, h2⟩ := seq_tree s h0 hc n g ht
  cases hat with
  | true =>
    obtain ⟨cs, h3, h4⟩ := h1 (.simple .bos) (fun c => rfl)
    refine ⟨_, .hat rfl h3 ?_, by rw [show hatToks true ++ s.toks = [94] :: s.toks from rfl, H_hat]; exact h4⟩
    rintro rfl; cases h3; simp [Sq.empty] at he
  | false =>
    obtain ⟨t, h3, h4⟩ := h2 he
    exact ⟨t, .plain rfl h3, h4⟩

theorem row_build {f : Nat} : ∀ (as : Alts) (g n : Nat), as.capRow g n = true → (∀ c ∈ as.spell, c ∈ allChars) →
    (∀ x ∈ as.bodies, (hatToks x.1 ++ x.2.toks).length < f) →
    ∃ ts, RowC false n as ts ∧ topBranches f (as.bodies.map (fun x => hatToks x.1 ++ x.2.toks)) g = some ts
  | .last hat s, g, n, h, hc, hf => by
    simp only [Alts.capRow, Bool.and_eq_true] at h
    obtain ⟨t, h1, h2⟩ := root_build h.1 (fun x hx => hc x (by simp [Alts.spell, hx])) h.2
    refine ⟨[t], .last h1, ?_⟩
    simp only [Alts.bodies, List.map_cons, List.map_nil, topBranches]
    rw [helper_H (hf (hat, s) (by simp [Alts.bodies])), h2]; rfl
  | .more hat s as, g, n, h, hc, hf => by
    simp only [Alts.capRow, Bool.and_eq_true] at h
    obtain ⟨t, h1, h2⟩ := root_build h.1.1 (fun x hx => hc x (by simp [Alts.spell, hx])) h.1.2
    obtain ⟨ts, h3, h4⟩ := row_build as _ _ h.2 (fun x hx => hc x (by simp [Alts.spell, hx])) (fun x hx => hf x (by simp [Alts.bodies, hx]))
    refine ⟨t :: ts, .more h1 h3, ?_⟩
    simp only [Alts.bodies, List.map_cons, topBranches]
    rw [helper_H (hf (hat, s) (by simp [Alts.bodies])), h2]
    simp only [root_next h1 (altCap_facts h.1.1).2.2.2.2, h4, Option.map_some]

theorem row_ok : ∀ (as : Alts) (g n : Nat), as.capRow g n = true → as.ok = true
  | .last hat s, g, n, h => by
    simp only [Alts.capRow, Bool.and_eq_true] at h
    obtain ⟨h1, h2, _⟩ := altCap_facts h.1
    simp [Alts.ok, capOk_ok s h1, h2]
  | .more hat s as, g, n, h => by
    simp only [Alts.capRow, Bool.and_eq_true] at h
    obtain ⟨h1, h2, _⟩ := altCap_facts h.1.1
    simp [Alts.ok, capOk_ok s h1, h2, row_ok as _ _ h.2]

theorem compile_row {hat : Bool} {s : Sq} {as : Alts} (h : (Alts.more hat s as).capRow 0 0 = true) (hc : ∀ c ∈ (Alts.more hat s as).spell, c ∈ allChars) :
    ∃ ts, compile (Alts.more hat s as).spell = some (.alt ts) ∧ RowC true 0 (.more hat s as) ts := by
  have hok := row_ok _ _ _ h
  generalize has : Alts.more hat s as = bs at h hc hok
  have ht : tokenize bs.spell = some bs.toks := (tokenize_iff _ _).2 (by simpa using tokens_alts bs hok .nil)
  have hs : splitT 124 bs.toks = bs.bodies.map (fun x => hatToks x.1 ++ x.2.toks) := by
    rw [← parts_bodies, toks_join]; exact splitT_parts _ (parts_ne bs) (topFree_alts bs hok)
  obtain ⟨ts, h1, h2⟩ := row_build (f := bs.toks.length + 1) bs 0 0 h hc (fun x hx => by
      have := length_join_ge (bs.parts.map Prod.fst) _ (by rw [parts_bodies]; exact List.mem_map_of_mem hx)
      rw [← toks_join] at this; omega)
  have hbuild : build bs.spell = some (.alt ts) := by simp only [build, ht, hs, h2]; rfl
  obtain ⟨r, hr⟩ := optimize_some (.alt ts)
  have step : ∀ t, (∃ f ts, t = .alt ts ∧ RowC f 0 bs ts) → ∃ ts, opt t [] = .alt ts ∧ RowC true 0 bs ts := by
    rintro t ⟨f, ts, rfl, h⟩
    have := row_opts h
    subst has
    cases h with
    | more h1 h2 =>
      cases h2 with
      | last => exact ⟨_, by simp only [opt, opts], this⟩
      | more => exact ⟨_, by simp only [opt, opts], this⟩
  obtain ⟨hw, he⟩ := optFix_inv (P := fun t => ∃ f ts, t = .alt ts ∧ RowC f 0 bs ts) (fun t ht => by
    obtain ⟨ts, h1, h2⟩ := step t ht; exact ⟨true, ts, h1, h2⟩) _ _ _ ⟨false, ts, rfl, h1⟩ hr
  obtain ⟨ts', h3, h4⟩ := step r hw
  rw [he] at h3
  subst h3
  exact ⟨ts', by simp [compile, hbuild, hr], h4⟩

/-! ## what the alternatives do -/

theorem fill_high : ∀ (l : List (Nat × Nat)) (c : Caps) (n k : Nat), n + l.length ≤ k → fill c n l k = c k
  | [], c, n, k, _ => rfl
  | x :: l, c, n, k, h => by
    simp only [List.length_cons] at h
    rw [fill, fill_high l _ _ _ (by omega)]
    simp [Caps.with]; omega

/-- The captures of the state are those of the way. -/
def Holds (st : St) (w : Way) : Prop :=
  st.pos = (w.1 : Int) ∧ ∀ k, k < st.groups.length → st.groups[k]? = some ((w.2 k).map (fun x => ((x.1 : Int), (x.2 : Int))))

/-- The run from `st` to `st'` reports the first of the list, with its captures, and changes nothing if there is none. -/
def Says (l : List Way) (st st' : St) : Prop :=
  match l.head? with
  | none => st'.accepted = false ∧ st'.pos = st.pos ∧ st'.groups = st.groups
  | some w => st'.accepted = true ∧ Holds st' w

theorem says_yes {l : List Way} {st st' : St} (h : Says l st st') : st'.accepted = true ↔ l ≠ [] := by
  cases l with
  | nil => simp only [Says, List.head?_nil] at h; simp [h]
  | cons e l => simp only [Says, List.head?_cons] at h; simp [h.1]

section
variable {cx : Ctx} {P : Par}

/-- No group has captured anything. -/
def Blank (st : St) : Prop := ∀ v ∈ st.groups, v = none

theorem Blank.at {st : St} (h : Blank st) {k : Nat} (hk : k < st.groups.length) : st.groups[k]? = some none := by
  rw [List.getElem?_eq_getElem hk]
  exact congrArg some (h _ (List.getElem_mem hk))

theorem root_says {n : Nat} {hat : Bool} {s : Sq} {t : Node} (h : RootC true n hat s t) (ha : altCap hat s = true)
    (hlen : cx.query.length < umax) (hq : ∀ c ∈ cx.query, c ∈ allChars) (hn : s.dollar = true → cx.post.head? = some 0) (hC : ∀ i a b, P.C i a b)
    (hN : n + s.count ≤ P.n) {st st' : St} {i : Nat} (hg : Good cx P st) (hfr : Blank st) (hi : st.pos = i) (hacc : st.accepted = true ∨ i < cx.query.length)
    (e : run cx t [] st = some st') : Says (if hat && i != 0 then [] else s.ways cx.query n i (fun _ => none)) st st' := by
  obtain ⟨h1, h2, h3, h4, h5⟩ := altCap_facts ha
  have hw : (if hat && i != 0 then [] else s.ways cx.query n i (fun _ => none)) = (capsAt cx.query hat s i).map (fun r => (r.1, fill (fun _ => none) n r.2)) := by
    unfold capsAt
    split
    · rfl
    · exact ways_caps s (capOk_shallow s h1) _ _ _ _
  have hd := root_does (P := P) h (Or.inl rfl) h1 h3 hlen hq hn hC hN hg hi hacc e
  obtain ⟨hs1, _, hs2⟩ := root_safe h (Or.inl rfl) s.dollar id
  have hgood := (run_good (P := P) hn hC t hs1 (fun j hj => by have := hs2 j hj; omega) [] (by simp)).get hg e
  rw [hw]
  unfold AgreesC at hd
  unfold Says
  rw [List.head?_map]
  cases hc : (capsAt cx.query hat s i).head? with
  | none =>
    rw [hc] at hd
    simp only [Option.map_none] at hd ⊢
    exact ⟨hd, run_clean cx t (root_clean h h4) [] st st' (by rw [hi]; omega) e hd, run_meek cx t (root_meek h h5) st st' e hd⟩
  | some r =>
    rw [hc] at hd
    simp only [Option.map_some] at hd ⊢
    obtain ⟨d1, d2, d3⟩ := hd
    refine ⟨d1, d2, fun k hk => ?_⟩
    have hmem : r ∈ caps cx.query s i := by
      have : r ∈ capsAt cx.query hat s i := List.mem_of_mem_head? hc
      unfold capsAt at this
      split at this
      · simp at this
      · exact this
    have hl := cap_length cx.query s (capOk_shallow s h1) i r hmem
    have hfrm : k ∉ slots t → st'.groups[k]? = some none := fun hk' => by
      rw [run_groups_frame cx t st st' e k hk']
      exact hfr.at (by rw [hg.len, ← hgood.len]; exact hk)
    show st'.groups[k]? = some ((fill (fun _ => none) n r.2 k).map (fun x => ((x.1 : Int), (x.2 : Int))))
    by_cases k1 : k < n
    · rw [fill_low _ _ _ _ k1]
      exact hfrm (fun hk' => by have := hs2 k hk'; omega)
    · by_cases k2 : k < n + s.count
      · obtain ⟨j, rfl⟩ : ∃ j, k = n + j := ⟨k - n, by omega⟩
        have hlt : j < r.2.length := by omega
        rw [fill_at _ _ _ _ hlt, d3 j _ (List.getElem?_eq_getElem hlt), List.getElem?_eq_getElem hlt]
        rfl
      · rw [fill_high _ _ _ _ (by omega)]
        exact hfrm (fun hk' => by have := hs2 k hk'; omega)

theorem row_says {n : Nat} {as : Alts} {ts : List Node} (h : RowC true n as ts) : ∀ {g : Nat} (_ : as.capRow g n = true)
    (_ : cx.query.length < umax) (_ : ∀ c ∈ cx.query, c ∈ allChars) (_ : as.dollar = true → cx.post.head? = some 0) (_ : ∀ i a b, P.C i a b)
    (_ : n + as.count ≤ P.n) {st st' : St} {i : Nat} (_ : Good cx P st) (_ : Blank st) (_ : st.pos = i) (_ : st.accepted = true ∨ i < cx.query.length)
    (_ : run cx (.alt ts) [] st = some st'), Says (as.ways cx.query n i (fun _ => none)) st st' := by
  induction h with
  | @last n hat s t h =>
    intro g ha hlen hq hn hC hN st st' i hg hfr hi hacc e
    simp only [Alts.capRow, Bool.and_eq_true] at ha
    rw [run_alt_one] at e
    exact root_says h ha.1 hlen hq hn hC hN hg hfr hi hacc e
  | @more n hat s as t ts h h' ih =>
    intro g ha hlen hq hn hC hN st st' i hg hfr hi hacc e
    simp only [Alts.capRow, Bool.and_eq_true] at ha
    simp only [Alts.count] at hN
    have hn1 : s.dollar = true → cx.post.head? = some 0 := fun h => hn (by simp [Alts.dollar, h])
    have hn2 : as.dollar = true → cx.post.head? = some 0 := fun h => hn (by simp [Alts.dollar, h])
    have htl : ∃ t' ts', ts = t' :: ts' := by cases h' <;> exact ⟨_, _, rfl⟩
    obtain ⟨t', ts', rfl⟩ := htl
    simp only [run, runs, dfs] at e
    simp only [Alts.ways]
    split at e
    · simp at e
    · rename_i st1 e1
      have hs := root_says (P := P) h ha.1.1 hlen hq hn1 hC (by omega) hg hfr hi hacc e1
      obtain ⟨hs1, _, hs2⟩ := root_safe h (Or.inl rfl) s.dollar id
      have hgood := (run_good (P := P) hn1 hC t hs1 (fun j hj => by have := hs2 j hj; omega) [] (by simp)).get hg e1
      split at e
      · rename_i hacc1
        cases e
        have := (says_yes hs).1 hacc1
        revert hs this
        generalize (if (hat && i != 0) = true then [] else s.ways cx.query n i fun _ => none) = l
        intro hs hne
        cases l with
        | nil => exact absurd rfl hne
        | cons w l => simpa [Says] using hs
      · rename_i hrej
        have hnil : (if (hat && i != 0) = true then [] else s.ways cx.query n i fun _ => none) = [] := by
          generalize hl : (if (hat && i != 0) = true then [] else s.ways cx.query n i fun _ => none) = l at hs
          cases l with
          | nil => rfl
          | cons w l => exact absurd ((says_yes hs).2 (by simp)) hrej
        rw [hnil] at hs ⊢
        simp only [Says, List.head?_nil] at hs
        have hfr1 : Blank { st1 with accepted := true } := fun v hv => hfr v (by simpa [hs.2.2] using hv)
        have := ih ha.2 hlen hq hn2 hC (by omega) (hgood.flag true) hfr1 (show st1.pos = _ by rw [hs.2.1, hi]) (Or.inl rfl) (by simpa only [run, runs] using e)
        rw [List.nil_append]
        revert this
        unfold Says
        cases (as.ways cx.query (n + s.count) i fun _ => none).head? with
        | none => exact fun h => ⟨h.1, h.2.1.trans hs.2.1, h.2.2.trans hs.2.2⟩
        | some w => exact id

theorem row_safe {n : Nat} {as : Alts} {ts : List Node} (h : RowC true n as ts) (nul : Bool) (hn : as.dollar = true → nul = true) :
    safes nul ts = true ∧ (slotss ts).length = as.count ∧ ∀ i ∈ slotss ts, n ≤ i ∧ i < n + as.count := by
  induction h with
  | last h =>
    obtain ⟨h1, h2, h3⟩ := root_safe h (Or.inl rfl) nul hn
    rw [groups_slots] at h2
    simp only [safes, slotss, List.append_nil, Bool.and_true]
    exact ⟨h1, h2, h3⟩
  | more h _ ih =>
    obtain ⟨h1, h2, h3⟩ := root_safe h (Or.inl rfl) nul (fun h => hn (by simp [Alts.dollar, h]))
    obtain ⟨h4, h5, h6⟩ := ih (fun h => hn (by simp [Alts.dollar, h]))
    rw [groups_slots] at h2
    simp only [safes, slotss, List.length_append, h1, h4, h2, h5, Alts.count, Bool.and_true, List.mem_append, true_and]
    rintro i (hi | hi)
    · have := h3 i hi; omega
    · have := h6 i hi; omega

end

/-! ## the search -/

/-- Attempts that begin without captures. -/
structure AttemptsF (cx : Ctx) (t : Node) (B : Nat → Prop) (R : Nat → St → Prop) : Prop where
  good : SafeTree cx t
  yes : ∀ L s st st', 0 ≤ L → L ≤ s → Good cx ⟨L, s, groupsOf t, fun _ _ _ => True⟩ st → Blank st → st.start = st.pos →
    (st.accepted = true ∨ st.pos < cx.qend) → run cx t [] st = some st' →
    (st'.accepted = true ↔ B (off st)) ∧ (st'.accepted = true → R (off st) st') ∧
    (st'.accepted = false → st'.pos = st.pos ∧ st'.groups = st.groups)

theorem fresh_loop {cx : Ctx} {t : Node} {B : Nat → Prop} {R : Nat → St → Prop} (h : AttemptsF cx t B R) {L : Int} (hL : 0 ≤ L) : ∀ (f : Nat) (st st' : St),
    L ≤ st.start → st.start = st.pos → st.groups.length = groupsOf t → Blank st →
    nextLoop cx (run cx t []) f st = .ok st' → LeftFromG cx B R (off st) st' := by
  intro f
  induction f with
  | zero =>
    intro st st' h1 hs hlen hv e
    simp only [nextLoop] at e
    split at e
    · simp at e
    · rename_i hge
      simp only [Outcome.ok.injEq] at e; subst e
      refine ⟨by simp, fun _ x hx hlt => ?_⟩
      simp only [Ctx.qend] at hge
      unfold off at hx
      omega
  | succ f ih =>
    intro st st' h1 hs hlen hv e
    simp only [nextLoop] at e
    split at e
    · rename_i hlt
      split at e
      · simp at e
      · rename_i st1 e1
        have hg : Good cx ⟨L, st.start, groupsOf t, fun _ _ _ => True⟩ st :=
          ⟨rfl, ⟨hL, h1⟩, ⟨by simp only; omega, by omega⟩, hlen, by intro v hv'; rw [hv v hv']; simp [ViewIn], fun _ _ _ _ => trivial⟩
        obtain ⟨hy1, hy2, hy3⟩ := h.yes L st.start st st1 hL h1 hg hv hs (Or.inr (by omega)) e1
        have g1 := (h.good L st.start hL h1).get hg e1
        have hst := g1.start; have hp := g1.pos
        simp only at hst hp
        obtain ⟨hn, _⟩ := hg.nat
        split at e
        · rename_i ha
          simp only [Outcome.ok.injEq] at e; subst e
          refine ⟨fun _ => ⟨off st, by omega, Nat.le_refl _, by simp only [Ctx.qend] at hlt; omega, hy2 ha, fun x hx _ => hx⟩, fun hf => ?_⟩
          rw [ha] at hf; simp at hf
        · rename_i ha
          have ha' : st1.accepted = false := by simpa using ha
          obtain ⟨hpos, hgr⟩ := hy3 ha'
          have hno : ¬ B (off st) := fun hb => ha (hy1.2 hb)
          have ih := ih { st1 with start := st1.pos + 1, pos := st1.pos + 1 } st' (by simp only; omega) rfl (by simp only [hgr, hlen])
            (fun v hv' => hv v (by simpa [hgr] using hv')) e
          have ho : off { st1 with start := st1.pos + 1, pos := st1.pos + 1 } = off st + 1 := by
            show (st1.pos + 1).toNat = st.pos.toNat + 1
            omega
          rw [ho] at ih
          refine ⟨fun hacc => ?_, fun hrej x hx hlt => ?_⟩
          · obtain ⟨s, s1, s2, s0, s3, s4⟩ := ih.hit hacc
            refine ⟨s, s1, by omega, s0, s3, fun x hx hst => ?_⟩
            by_cases hxx : x = off st
            · subst hxx; exact absurd hst hno
            · exact s4 x (by omega) hst
          · by_cases hxx : x = off st
            · subst hxx; exact hno
            · exact ih.miss hrej x (by omega) hlt
    · rename_i hge
      simp only [Outcome.ok.injEq] at e; subst e
      refine ⟨by simp, fun _ x hx hlt => ?_⟩
      simp only [Ctx.qend] at hge
      unfold off at hx
      omega

theorem fresh_next {cx : Ctx} {t : Node} {B : Nat → Prop} {R : Nat → St → Prop} (h : AttemptsF cx t B R) {f : Nat} {st st' : St} (h0 : 0 ≤ st.pos)
    (e : next cx t f st = .ok st') : LeftFromG cx B R (off st) st' :=
  fresh_loop h (L := st.pos) h0 f { st with groups := List.replicate (groupsOf t) none, start := st.pos } st' (by simp) rfl (by simp)
    (fun v hv => List.eq_of_mem_replicate hv) e

theorem fresh_construct {cx : Ctx} {t : Node} {B : Nat → Prop} {R : Nat → St → Prop} (h : AttemptsF cx t B R) {f : Nat} {st : St} (e : construct cx t f = .ok st) :
    LeftMostG cx B R st := by
  simp only [construct] at e
  split at e
  · simp at e
  · rename_i st1 e1
    have hq : 0 ≤ cx.qend := by simp [Ctx.qend]
    have hg : Good cx ⟨0, 0, groupsOf t, fun _ _ _ => True⟩ (initSt t) :=
      ⟨rfl, ⟨by simp, by simp⟩, ⟨by simp [initSt], by simp [initSt, hq]⟩, by simp [initSt], replicate_views cx _ _, fun _ _ _ _ => trivial⟩
    obtain ⟨hy1, hy2, hy3⟩ := h.yes 0 0 (initSt t) st1 (by omega) (by omega) hg (fun v hv => List.eq_of_mem_replicate hv) rfl (Or.inl rfl) e1
    have g1 := (h.good 0 0 (by omega) (by omega)).get hg e1
    have hst := g1.start; have hp := g1.pos
    simp only at hst hp
    have h00 : off (initSt t) = 0 := rfl
    rw [h00] at hy1 hy2
    split at e
    · rename_i ha
      simp only [Outcome.ok.injEq] at e; subst e
      refine ⟨fun _ => ⟨0, by simpa using hst, Or.inl rfl, hy2 ha, fun x _ => Nat.zero_le _⟩, fun hf => ?_⟩
      rw [ha] at hf; simp at hf
    · rename_i ha
      have hno : ¬ B 0 := fun hb => ha (hy1.2 hb)
      have hl := fresh_next h (by omega) e
      have hoff : off st1 = 0 := by
        have := (hy3 (by simpa using ha)).1
        show st1.pos.toNat = 0
        rw [this]; rfl
      rw [hoff] at hl
      refine ⟨fun hacc => ?_, fun hrej x hx => ?_⟩
      · obtain ⟨s, s1, s2, s0, s3, s4⟩ := hl.hit hacc
        exact ⟨s, s1, Or.inr s0, s3, fun x hst => s4 x (Nat.zero_le _) hst⟩
      · rcases hx with rfl | hx
        · exact hno
        · exact hl.miss hrej x (Nat.zero_le _) hx

/-- The state reports the best of the ways to match that begin at `i`. -/
def Told (q : List Int) (as : Alts) (i : Nat) (st : St) : Prop := ∃ w, (as.ways q 0 i (fun _ => none)).head? = some w ∧ Holds st w ∧ st.groups.length = as.count

theorem row_search {cx : Ctx} {as : Alts} {ts : List Node} (h : RowC true 0 as ts) (ha : as.capRow 0 0 = true) (hlen : cx.query.length < umax)
    (hq : ∀ c ∈ cx.query, c ∈ allChars) (hn : as.dollar = true → cx.post.head? = some 0) :
    AttemptsF cx (.alt ts) (fun i => as.ways cx.query 0 i (fun _ => none) ≠ []) (Told cx.query as) := by
  obtain ⟨h1, h2, h3⟩ := row_safe h as.dollar id
  have hcount : groupsOf (.alt ts) = as.count := by rw [groups_slots]; simpa only [slots] using h2
  have hsafe : SafeTree cx (.alt ts) := safeTree hn (by simpa only [safe] using h1) (by rw [hcount]; simpa only [slots, Nat.zero_le, true_and, Nat.zero_add] using h3)
  refine ⟨hsafe, ?_⟩
  intro L s st st' hL hs hg hfr hst hacc e
  obtain ⟨hp, _⟩ := hg.nat
  have hsay := row_says (P := ⟨L, s, groupsOf (.alt ts), fun _ _ _ => True⟩) h ha hlen hq hn (fun _ _ _ => trivial) (by simp only [hcount]; omega) hg hfr hp (by
    rcases hacc with h | h
    · exact Or.inl h
    · right; unfold Ctx.qend at h; omega) e
  refine ⟨says_yes hsay, fun hacc => ?_, fun hrej => ?_⟩
  · unfold Says at hsay
    unfold Told
    cases hh : (as.ways cx.query 0 (off st) (fun _ => none)).head? with
    | none => rw [hh] at hsay; simp only at hsay; rw [hsay.1] at hacc; cases hacc
    | some w => rw [hh] at hsay; exact ⟨w, rfl, hsay.2, by rw [← hcount]; exact ((hsafe L s hL hs).get hg e).len⟩
  · unfold Says at hsay
    cases hh : (as.ways cx.query 0 (off st) (fun _ => none)).head? with
    | none => rw [hh] at hsay; exact hsay.2
    | some w => rw [hh] at hsay; rw [hsay.1] at hrej; cases hrej

end ERegex

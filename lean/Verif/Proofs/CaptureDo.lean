import Verif.Proofs.CaptureRep
/-!
# Captures: what the tree of a sequence with groups does
-/
set_option autoImplicit false
namespace ERegex
open ERegex.Spec ERegex.Props

/-- The run reports the first of the list, with its captures from group `n` on. -/
def AgreesC (l : List (Nat × List (Nat × Nat))) (n : Nat) (st : St) : Prop :=
  match l.head? with
  | none => st.accepted = false
  | some r => st.accepted = true ∧ st.pos = (r.1 : Int) ∧ ∀ (j : Nat) (x : Nat × Nat), r.2[j]? = some x → st.groups[n + j]? = some (some ((x.1 : Int), (x.2 : Int)))

theorem agreesC_head {l l' : List (Nat × List (Nat × Nat))} {n : Nat} {st : St} (h : AgreesC l n st) (e : l'.head? = l.head?) : AgreesC l' n st := by
  unfold AgreesC at h ⊢; rw [e]; exact h

theorem agreesC_yes {l : List (Nat × List (Nat × Nat))} {n : Nat} {st : St} (h : AgreesC l n st) : st.accepted = true ↔ l ≠ [] := by
  cases l with
  | nil => simp only [AgreesC, List.head?_nil] at h; simp [h]
  | cons e l => simp only [AgreesC, List.head?_cons] at h; simp [h.1]

theorem agreesC_no {l : List (Nat × List (Nat × Nat))} {n : Nat} {st : St} (h : l = []) (ha : st.accepted = false) : AgreesC l n st := by
  subst h; exact ha

theorem agreesC_nil {l : List (Nat × List (Nat × Nat))} {n : Nat} {st : St} (h : AgreesC l n st) (ha : st.accepted = false) : l = [] := by
  cases hl : l with
  | nil => rfl
  | cons x l' => exact absurd ((agreesC_yes h).2 (by rw [hl]; simp)) (by simp [ha])

section
variable {cx : Ctx} {P : Par}

/-- What a sequence does, at every offset. -/
def DoesC (cx : Ctx) (P : Par) (n : Nat) (s : Sq) (cs : List Node) : Prop := ∀ (st st' : St) (i : Nat), Good cx P st → st.pos = i →
  (st.accepted = true ∨ (cs ≠ [] ∧ i < cx.query.length)) → dfs (runs cx cs) [] st = some st' → AgreesC (caps cx.query s i) n st'

theorem judge_of {n : Nat} {s : Sq} {cs : List Node} (hd : DoesC cx P n s cs) (hk : GoodK cx P (dfs (runs cx cs) [])) :
    Judge cx P (dfs (runs cx cs) []) (fun x => caps cx.query s x ≠ []) := by
  intro st x hg hx ha
  obtain ⟨st', e, hg'⟩ := hk st hg
  exact ⟨st', e, hg', agreesC_yes (hd st st' x hg hx (Or.inl ha) e)⟩

theorem from_agrees {n : Nat} {s : Sq} {cs : List Node} (hd : DoesC cx P n s cs) {x : Nat} {st' : St} (h : From cx P (dfs (runs cx cs) []) x st') :
    AgreesC (caps cx.query s x) n st' := by
  obtain ⟨st0, h1, h2, h3, h4⟩ := h
  exact hd st0 st' x h1 h2 (Or.inl h3) h4

theorem goodC (hC : ∀ i a b, P.C i a b) {f : Bool} {n : Nat} {s : Sq} {cs : List Node} (hf : FitsC f n s cs) (hkn : KnownC f s) (hn : s.dollar = true → cx.post.head? = some 0)
    (hN : n + s.count ≤ P.n) : GoodK cx P (dfs (runs cx cs) []) := by
  obtain ⟨h1, h2⟩ := fitsC_safe hf hkn s.dollar id
  have := run_good (P := P) hn hC (.alt cs) (by simpa [safe] using h1) (by
    simp only [slots]; intro i hi; have := h2 i hi; omega) [] (by simp)
  simpa only [run] using this

/-- Groups before the first one of the sequence are not touched. -/
theorem frameC {f : Bool} {n : Nat} {s : Sq} {cs : List Node} (hf : FitsC f n s cs) (hkn : KnownC f s) {st st' : St} (e : dfs (runs cx cs) [] st = some st') :
    ∀ k, k < n → st'.groups[k]? = st.groups[k]? := by
  obtain ⟨_, h2⟩ := fitsC_safe hf hkn true (fun _ => rfl)
  have H : Steps (slotss cs) (fun a b => ∀ k, k < n → b.groups[k]? = a.groups[k]?) :=
    ⟨fun _ _ _ => rfl, fun _ _ _ h1 h2 k hk => (h2 k hk).trans (h1 k hk), fun _ _ _ _ _ => rfl, fun a i v hi k hk => by
      have := h2 i hi
      simp only [List.getElem?_set]
      rw [if_neg (by omega)]⟩
  exact dfs_steps H _ _ (runs_steps H cx cs (fun _ h => h)) (by simp) st st' e

theorem good_cap (hC : ∀ i a b, P.C i a b) {st st1 : St} (h : Good cx P st) (h1 : Good cx P st1) (n : Nat) :
    Good cx P { st1 with groups := st1.groups.set n (some (st.pos, st1.pos)) } := by
  refine ⟨h1.start, h1.lo, h1.pos, by simp [h1.len], ?_, fun i a b _ => hC i a b⟩
  intro v hv
  simp only at hv
  rcases List.mem_or_eq_of_mem_set hv with hv | rfl
  · exact h1.views v hv
  · intro a b e
    simp only [Option.some.injEq, Prod.mk.injEq] at e
    obtain ⟨rfl, rfl⟩ := e
    have := h1.lo; have := h1.pos; have := h.pos
    exact ⟨by omega, by omega, by omega, by omega⟩

/-- The outcome of a group body: what follows works at its end if it works at any. -/
def Leads (q : List Int) (s : Sq) (l : List Nat) (st1 : St) : Prop :=
  (st1.accepted = false → ∀ x ∈ l, caps q s x = []) ∧
  (st1.accepted = true → ∃ e : Nat, st1.pos = e ∧ ∀ F : Nat → List (Nat × List (Nat × Nat)), (∀ x, F x = [] ↔ caps q s x = []) →
    (l.flatMap F).head? = (F e).head?)

/-- A capturing group. -/
theorem cap_does (hC : ∀ i a b, P.C i a b) {f : Bool} {n : Nat} {as : Alts} {m : Node} {s : Sq} {cs : List Node} (hf : FitsC f (n + 1) s cs) (hkn : KnownC f s)
    (hqu : f = true ∨ s.quiet = true) (hN : n < P.n)
    (hd : DoesC cx P (n + 1) s cs)
    (hbody : ∀ (st st1 : St) (i : Nat), Good cx P st → st.pos = i → (st.accepted = true ∨ i < cx.query.length) →
      run cx m ((runs cx cs).map (fun c => c [])) st = some st1 → Good cx P st1 ∧ Leads cx.query s (as.picks cx.query i) st1) :
    DoesC cx P n (.cons (.group true as) .once s) [.group m n cs] := by
  intro st st' i hg hi hacc e
  simp only [runs, dfs, run, groupMatch] at e
  split at e
  · simp at e
  · rename_i st1 h1
    obtain ⟨hg1, hl1, hl2⟩ := hbody st st1 i hg hi (by rcases hacc with h | h; exact Or.inl h; exact Or.inr h.2) h1
    split at e
    · rename_i hac
      obtain ⟨x, hx, hF⟩ := hl2 hac
      split at e
      · rw [fitsC_calm hf hkn hqu] at e
        have hg2 := good_cap hC hg hg1 n
        have ha := hd _ st' x hg2 hx (Or.inl hac) e
        have hfr := frameC hf hkn e n (by omega)
        have hlt : n < st1.groups.length := by rw [hg1.len]; exact hN
        have hgn : st'.groups[n]? = some (some ((i : Int), (x : Int))) := by
          rw [hfr]
          simp only [List.getElem?_set_self hlt, hi, hx]
        have hh := hF (fun e => (caps cx.query s e).map (fun r => (r.1, (i, e) :: r.2))) (by intro x; simp)
        have key : AgreesC ((caps cx.query s x).map (fun r => (r.1, (i, x) :: r.2))) n st' := by
          unfold AgreesC at ha ⊢
          rw [List.head?_map]
          cases hc : (caps cx.query s x).head? with
          | none => rw [hc] at ha; exact ha
          | some r =>
            rw [hc] at ha
            refine ⟨ha.1, ha.2.1, fun j y hy => ?_⟩
            cases j with
            | zero => simp only [List.getElem?_cons_zero, Option.some.injEq] at hy; subst hy; exact hgn
            | succ j =>
              rw [show n + (j + 1) = n + 1 + j by omega]
              exact ha.2.2 j y (by simpa using hy)
        exact agreesC_head key (by simp only [caps_once, if_true]; exact hh)
      · simp at e
    · rename_i hac
      simp only [Option.some.injEq] at e
      subst e
      refine agreesC_no ?_ (by simpa using hac)
      simp only [caps_once, List.flatMap_eq_nil_iff, List.map_eq_nil_iff]
      exact hl1 (by simpa using hac)

/-- A group that does not capture. -/
theorem non_does {n : Nat} {as : Alts} {m : Node} {s : Sq} {cs : List Node} (hd : DoesC cx P n s cs)
    (hbody : ∀ (st st1 : St) (i : Nat), Good cx P st → st.pos = i → (st.accepted = true ∨ i < cx.query.length) →
      run cx m [] st = some st1 → Good cx P st1 ∧ Leads cx.query s (as.picks cx.query i) st1) :
    DoesC cx P n (.cons (.group false as) .once s) [.simple m cs] := by
  intro st st' i hg hi hacc e
  simp only [runs, dfs, run, simpleMatch] at e
  split at e
  · simp at e
  · rename_i st1 h1
    obtain ⟨hg1, hl1, hl2⟩ := hbody st st1 i hg hi (by rcases hacc with h | h; exact Or.inl h; exact Or.inr h.2) h1
    split at e
    · rename_i hac
      obtain ⟨x, hx, hF⟩ := hl2 hac
      have hh := hF (fun e => (caps cx.query s e).map (fun r => (r.1, r.2))) (by intro x; simp)
      split at e
      · simp at e
      · rename_i st2 h2
        have ha := hd _ st2 x hg1 hx (Or.inl hac) h2
        refine agreesC_head (l := (caps cx.query s x).map (fun r => (r.1, r.2))) ?_ (by simp only [caps_once, Bool.false_eq_true, if_false]; exact hh)
        have hid : (caps cx.query s x).map (fun r => (r.1, r.2)) = caps cx.query s x := List.map_id _
        rw [hid]
        split at e
        · cases e; exact ha
        · rename_i hna
          cases e
          exact agreesC_no (agreesC_nil ha (by simpa using hna)) (by simpa using hna)
    · rename_i hac
      simp only [Option.some.injEq] at e
      subst e
      refine agreesC_no ?_ (by simpa using hac)
      simp only [caps_once, List.flatMap_eq_nil_iff, List.map_eq_nil_iff]
      exact hl1 (by simpa using hac)

theorem whole_does {f : Bool} {capture : Bool} {as : Alts} {m : Node} {s : Sq} (hw : Whole f as.bodies m) (hk : f = true ∨ as.robust = true) (hb : bodyOk capture as s = true)
    (hlen : cx.query.length < umax) (hq : ∀ c ∈ cx.query, c ∈ allChars) (hC : ∀ i a b, P.C i a b) : DoesT cx P (as.picks cx.query) m := by
  have hF := body_facts hb
  have hkb : ∀ x ∈ as.bodies, Known f x.2 := fun x hx => hk.imp id (fun h => robust_bodies as h x hx)
  have hdol : ∀ x ∈ as.bodies, x.2.dollar = true → cx.post.head? = some 0 := fun x hx h => by rw [hF.dollar x hx] at h; cases h
  have hp : as.picks cx.query = picksOf cx.query as.bodies := by funext i; rw [picksOf_bodies]
  rw [hp]
  cases as with
  | last hat b =>
    have hb1 : ∀ t, Top f (hat, b) t → DoesT cx P (picksOf cx.query [(hat, b)]) t := by
      intro t ht st i hg hi
      have hh := hF.hat (hat, b) (by simp [Alts.bodies])
      obtain ⟨st', e, ha⟩ := top_does (P := P) ht (hkb (hat, b) (by simp [Alts.bodies])) (hF.regular _ (by simp [Alts.bodies])) (fun h => by simp only at hh h; rw [hh] at h; cases h) hlen hq
        (hdol _ (by simp [Alts.bodies])) hC st i hg hi
      exact ⟨st', e, by simpa [picksOf] using ha⟩
    simp only [Alts.bodies] at hw ⊢
    cases hw with
    | one h => exact hb1 _ h
    | alt h =>
      cases h with
      | cons h1 h2 =>
        cases h2
        intro st i hg hi
        rw [run_alt_one]
        exact hb1 _ h1 st i hg hi
  | more hat b as =>
    have halt : ∀ x ∈ (Alts.more hat b as).bodies, altOk x.1 x.2 = true := by
      intro x hx
      have := body_more hb x hx
      simp [altOk, hF.regular x hx, this.1, this.2]
    generalize hbs : (Alts.more hat b as).bodies = xs at hw halt hdol hkb
    cases hw with
    | one h =>
      exfalso
      cases as <;> simp [Alts.bodies] at hbs
    | alt h => exact tops_does h hkb halt hlen hq hdol hC (by rintro rfl; cases h; simp [Alts.bodies] at hbs)

theorem whole_leads {f : Bool} {capture : Bool} {as : Alts} {m : Node} {s : Sq} (hw : Whole f as.bodies m) (hk : f = true ∨ as.robust = true) (hb : bodyOk capture as s = true) (hp : plainGroups s = true)
    (hlen : cx.query.length < umax) (hq : ∀ c ∈ cx.query, c ∈ allChars) (hC : ∀ i a b, P.C i a b) (inj : List K) (hcalm : run cx m inj = run cx m []) {st st1 : St} {i : Nat} (hg : Good cx P st) (hi : st.pos = i)
    (e : run cx m inj st = some st1) : Good cx P st1 ∧ Leads cx.query s (as.picks cx.query i) st1 := by
  rw [hcalm] at e
  have hil : i ≤ cx.query.length := by have := hg.pos; rw [hi] at this; have := this.2; unfold Ctx.qend at this; omega
  obtain ⟨r, e2, ha⟩ := whole_does (P := P) hw hk hb hlen hq hC st i hg hi
  rw [e] at e2; cases e2
  obtain ⟨hs1, hs2⟩ := whole_safe hw false (fun x hx h => by rw [(body_facts hb).dollar x hx] at h; cases h)
  refine ⟨(run_good (P := P) (nul := false) (by simp) hC m hs1 (by simp [hs2]) [] (by simp)).get hg e, fun hf x hx => ?_, fun hacc => ?_⟩
  · cases hl : as.picks cx.query i with
    | nil => rw [hl] at hx; simp at hx
    | cons y l => rw [hl] at ha; rw [ha.1] at hf; cases hf
  · have := (agrees_yes ha).1 hacc
    cases hl : as.picks cx.query i with
    | nil => exact absurd hl this
    | cons y l =>
      rw [hl] at ha
      refine ⟨y, ha.2, fun F hF => ?_⟩
      rw [← hl]
      exact group_head hq hb hp hF hil (by rw [hl]; rfl)

theorem loop_picks (q : List Int) (a : Atom) (k : Quant) (i : Nat) {α : Type} (F : Nat → List α) :
    ((Alts.last false (.cons a k (.nil false))).picks q i).flatMap F = (k.counts (runLen a.set (q.drop i))).flatMap (fun n => F (i + n)) := by
  simp only [Alts.picks, hatPicks, Bool.false_and, Bool.false_eq_true, if_false, Sq.picks, List.flatMap_assoc, List.flatMap_cons, List.flatMap_nil, List.append_nil]

theorem loop_mem {q : List Int} {a : Atom} {k : Quant} {i x : Nat} (h : x ∈ (Alts.last false (.cons a k (.nil false))).picks q i) :
    ∃ n, n ∈ k.counts (runLen a.set (q.drop i)) ∧ x = i + n := by
  simp only [Alts.picks, hatPicks, Bool.false_and, Bool.false_eq_true, if_false, Sq.picks, List.mem_flatMap, List.mem_singleton] at h
  exact h

/-- The end of a loop that is the greatest (or least) number of repetitions after which the rest works, or works at all. -/
theorem loop_head {q : List Int} {s : Sq} {a : Atom} {k : Quant} {i d : Nat} {F : Nat → List (Nat × List (Nat × Nat))} (hF : ∀ x, F x = [] ↔ caps q s x = [])
    (hd : Allowed k d) (hr : d ≤ runLen a.set (q.drop i))
    (hbest : ∀ m, Allowed k m → m ≤ runLen a.set (q.drop i) → caps q s (i + m) ≠ [] → caps q s (i + d) ≠ [] ∧ ((k.mode = .greedy → m ≤ d) ∧ (k.mode = .lazy → d ≤ m) ∧ k.mode ≠ .possessive)) :
    ((k.counts (runLen a.set (q.drop i))).flatMap (fun n => F (i + n))).head? = (F (i + d)).head? := by
  by_cases hw : caps q s (i + d) = []
  · have : (k.counts (runLen a.set (q.drop i))).flatMap (fun n => F (i + n)) = [] := counts_nil (fun m h1 h2 => by
      rw [hF]
      cases hc : caps q s (i + m) with
      | nil => rfl
      | cons y l => exact absurd hw (hbest m h1 h2 (by rw [hc]; simp)).1)
    rw [this, (hF _).2 hw]
  · have hne : F (i + d) ≠ [] := fun h => hw ((hF _).1 h)
    have hb : ∀ m, Allowed k m → m ≤ runLen a.set (q.drop i) → F (i + m) ≠ [] → (k.mode = .greedy → m ≤ d) ∧ (k.mode = .lazy → d ≤ m) ∧ k.mode ≠ .possessive :=
      fun m h1 h2 h3 => (hbest m h1 h2 (fun h => h3 ((hF _).2 h))).2
    cases hm : k.mode with
    | greedy => exact head_greedy (f := fun n => F (i + n)) hm hd hr hne (fun m h1 h2 h3 => (hb m h1 h2 h3).1 hm)
    | lazy => exact head_lazy (f := fun n => F (i + n)) hm hd hr hne (fun m h1 h2 h3 => (hb m h1 h2 h3).2.1 hm)
    | possessive => exact absurd hm (hb d hd hr hne).2.2

theorem loop_safe {f : Bool} {a : Atom} {k : Quant} {s : Sq} {m : Node} (h : Loop f a k s m) (nul : Bool) : safe nul m = true ∧ slots m = [] := by
  induction h with
  | possessive ha _ => simp [safes, slotss, safe, slots, atomic_safe ha, ha.noslot]
  | greedy ha _ _ => simp [safes, slotss, safe, slots, atomic_safe ha, ha.noslot, ha.size]
  | lazy ha _ _ => simp [safes, slotss, safe, slots, atomic_safe ha, ha.noslot]
  | wrap _ ih => simpa [safes, slotss, safe, slots] using ih

theorem hi_one {k : Quant} (h : (!(k.lo == 0 && k.hi == some 1)) = true) : ¬ (k.lo = 0 ∧ k.hiN = 1) := by
  rintro ⟨h1, h2⟩
  unfold Quant.hiN at h2
  cases hh : k.hi with
  | none => rw [hh] at h2; simp [umax] at h2
  | some x => rw [hh] at h2; simp at h2; simp [h1, hh, h2] at h

theorem loop_leads {f : Bool} {n : Nat} {a : Atom} {k : Quant} {m : Node} {s : Sq} {cs : List Node} (hl : Loop f a k s m) (hfix : k.fixed = false) (hok : loopOk a k s = true)
    (hlk : f = true ∨ loopStout a k s = true) (hf : FitsC f (n + 1) s cs) (hkn : KnownC f s) (hd : DoesC cx P (n + 1) s cs) (hk : GoodK cx P (dfs (runs cx cs) []))
    (hC : ∀ i a b, P.C i a b) (hn : s.dollar = true → cx.post.head? = some 0) (hN : n + 1 + s.count ≤ P.n)
    (hlen : cx.query.length < umax) (hq : ∀ c ∈ cx.query, c ∈ allChars) {st st1 : St} {i : Nat} (hg : Good cx P st) (hi : st.pos = i)
    (hacc : st.accepted = true ∨ i < cx.query.length) (e : run cx m ((runs cx cs).map (fun c => c [])) st = some st1) :
    Good cx P st1 ∧ Leads cx.query s ((Alts.last false (.cons a k (.nil false))).picks cx.query i) st1 := by
  have hb := hg.pos
  rw [hi] at hb
  have hil : i ≤ cx.query.length := by have := hb.2; unfold Ctx.qend at this; omega
  simp only [loopOk, Bool.and_eq_true] at hok
  obtain ⟨⟨⟨_, hp⟩, hsane⟩, hmode⟩ := hok
  have hbd := sane_bounds hsane
  have hav := runLen_le cx.query a.set i hil
  have hpl := fitsC_plain hf
  have hjudge := judge_of hd hk
  have allowed : ∀ {d}, Allowed k d → d ≤ runLen a.set (cx.query.drop i) → k.lo ≤ d ∧ d ≤ k.hiN ∧ InClass cx.query a.set i d :=
    fun h1 h2 => ⟨h1.1, (hiN_iff (by omega)).2 h1.2, (inClass_runLen ..).2 h2⟩
  have hown : ∀ k ∈ (runs cx cs).map (fun c => c []), GoodK cx P k := by
    obtain ⟨h1, h2⟩ := fitsC_safe hf hkn s.dollar id
    refine own_good (fun f hf => ?_)
    exact runs_good (P := P) hn hC cs h1 (fun i hi => by have := h2 i hi; omega) f hf [] (by simp)
  obtain ⟨hs1, hs2⟩ := loop_safe hl false
  refine ⟨(run_good (P := P) (nul := false) (by simp) hC m hs1 (by simp [hs2]) _ hown).get hg e, ?_⟩
  clear hs1 hs2
  induction hl with
  | wrap _ ih => rw [run_alt_one] at e; exact ih e
  | @possessive m ha hno =>
    have hs := stepSpec_run cx m ha.one ((runs cx cs).map (fun c => c []))
    rw [ha.test] at hs
    simp only [run, possessiveMatch, runs, dfs] at e
    obtain ⟨d, hd1, hd2, hd3, e1, e2⟩ := poss_char hs k.lo k.hiN 0 st i hi
    rw [hi] at e
    have hdr := (inClass_runLen ..).1 hd2
    by_cases hlo : k.lo ≤ d
    · rw [e1 (Or.inr (by omega)), if_neg (by omega)] at e
      simp only [Option.some.injEq] at e
      subst e
      refine ⟨fun h => by simp at h, fun _ => ⟨i + d, rfl, fun F hF => ?_⟩⟩
      rw [loop_picks]
      have htop : k.top (runLen a.set (cx.query.drop i)) = d := by
        apply Nat.le_antisymm
        · have ht := (le_top k (k.top (runLen a.set (cx.query.drop i))) _).1 (Nat.le_refl _)
          by_cases hle : k.top (runLen a.set (cx.query.drop i)) ≤ d
          · exact hle
          · have h1 := (hiN_iff (k := k) (n := k.top (runLen a.set (cx.query.drop i))) (by omega)).2 ht.1
            exact absurd ((inClass_runLen ..).2 (by omega : d + 1 ≤ _)) (hd3 (by omega))
        · exact (le_top ..).2 ⟨(hiN_iff (by omega)).1 hd1, hdr⟩
      rw [← htop]
      have works : k.mode ≠ .possessive → ∀ x, Allowed k x → x ≤ runLen a.set (cx.query.drop i) → F (i + x) ≠ [] →
          s.voids = true ∨ x = k.top (runLen a.set (cx.query.drop i)) := by
        intro hm x h1 h2 h3
        have hmt := hno hm
        have hcond : s.voids = true ∨ meets a.set s.begins = false := by
          cases hmo : k.mode with
          | possessive => exact absurd hmo hm
          | greedy => rw [hmo, hmt] at hmode; simpa using hmode
          | lazy => rw [hmo, hmt] at hmode; simp at hmode; exact Or.inr hmode.2
        exact top_caps hq hpl hcond hil ((le_top ..).2 ⟨h1.2, h2⟩) (by omega) (fun h => h3 ((hF _).2 h))
      refine head_top (f := fun n => F (i + n)) (by omega) (fun hm x h1 h2 h3 => ?_) (fun hm x h1 h2 h3 => ?_)
      · rcases works (by rw [hm]; simp) x h1 h2 h3 with h | h
        · exact fun hc => voids_caps _ s hpl h _ ((hF _).1 hc)
        · rwa [← h]
      · rcases works (by rw [hm]; simp) x h1 h2 h3 with h | h
        · rw [hm, hno (by rw [hm]; simp)] at hmode; simp [h] at hmode
        · exact h
    · obtain ⟨r, e3, hr⟩ := e2 (by omega) (by omega)
      rw [e3] at e
      simp only [Option.some.injEq] at e
      subst e
      have hno' : ∀ x, x ∉ (Alts.last false (.cons a k (.nil false))).picks cx.query i := by
        intro x hx
        obtain ⟨c, hc, _⟩ := loop_mem hx
        obtain ⟨h1, h2⟩ := counts_sub k _ c hc
        have h3 := h1.1
        exact absurd (inClass_mono ((inClass_runLen ..).2 h2) (by omega : d + 1 ≤ c)) (hd3 (by omega))
      exact ⟨fun _ x hx => absurd hx (hno' x), fun h => by rw [hr] at h; cases h⟩
  | @greedy m ha hmo hm =>
    replace hmode : a.steady = true ∧ (!(k.lo == 0 && k.hi == some 1)) = true := by
      rcases hlk with h | h
      · rw [hmo, hm h] at hmode
        simpa only [if_true, Bool.and_eq_true] using hmode
      · unfold loopStout at h
        rw [not_held hfix (by rw [hmo]; simp), hmo] at h
        simpa only [Bool.false_or, Bool.and_eq_true] using h
    have hopt : optPath m k.lo k.hiN = false := by
      cases ho : optPath m k.lo k.hiN with
      | false => rfl
      | true => exact absurd ⟨((optPath_iff ..).1 ho).1, ((optPath_iff ..).1 ho).2.1⟩ (hi_one hmode.2)
    rw [run_greedy_loop cx [] hopt, charStep_of (ha.steady hmode.1) [], ha.test] at e
    have hj : Judge cx P (greedyBacktrack (runs cx []) ((runs cx cs).map (fun c => c []))) (fun x => caps cx.query s x ≠ []) := by
      intro st x hg hx hacc
      obtain ⟨r, e1, hg1, hr⟩ := hjudge st x hg hx hacc
      exact ⟨{ r with pos := st.pos }, by simp [greedyBacktrack, runs, dfsInj_own, e1], hg1.move hg.pos.1 hg.pos.2, hr⟩
    have hcl : Clean (greedyBacktrack (runs cx []) ((runs cx cs).map (fun c => c []))) := by
      intro st r _ e1 _
      simp only [greedyBacktrack, runs, List.isEmpty_nil, if_true] at e1
      split at e1
      · simp at e1
      · cases e1; rfl
    rcases greedy_from hj hcl hbd.1 hg hi e with ⟨h1, h2⟩ | ⟨d, h1, h2, h3, h4, h5⟩
    · refine ⟨fun _ x hx => ?_, fun h => by rw [h2] at h; cases h⟩
      obtain ⟨c, hc, _⟩ := loop_mem hx
      obtain ⟨h5, h6⟩ := counts_sub k _ c hc
      exact absurd (inClass_mono ((inClass_runLen ..).2 h6) h5.1) h1
    · have hdr := (inClass_runLen ..).1 h3
      have hal : Allowed k d := ⟨h1, (hiN_iff (by omega)).1 h2⟩
      have hup : ∀ x, Allowed k x → x ≤ runLen a.set (cx.query.drop i) → caps cx.query s (i + x) ≠ [] → x ≤ d := by
        intro x hx1 hx2 hx3
        obtain ⟨_, h6, h7⟩ := allowed hx1 hx2
        by_cases hle : x ≤ d
        · exact hle
        · exact absurd hx3 (h4 x (by omega) h6 h7)
      have key : st1.accepted = true ∧ st1.pos = (i + d : Nat) ∧
          ∀ x, Allowed k x → x ≤ runLen a.set (cx.query.drop i) → caps cx.query s (i + x) ≠ [] → caps cx.query s (i + d) ≠ [] := by
        rcases h5 with ⟨h5, h6⟩ | ⟨h5, h6⟩
        · refine ⟨h6, ?_, fun _ _ _ _ => (h5.iff hj).1 h6⟩
          obtain ⟨st0, _, h8, _, h9⟩ := h5
          simp only [greedyBacktrack, runs, List.isEmpty_nil, if_true] at h9
          split at h9
          · simp at h9
          · cases h9; exact h8
        · obtain ⟨st0, _, h8, h9, h10⟩ := h6
          simp only [runs, dfs, Option.some.injEq] at h10
          subst h10
          refine ⟨h9, h8, fun x hx1 hx2 hx3 => ?_⟩
          have := hup x hx1 hx2 hx3
          have := hx1.1
          rwa [show d = x by omega]
      refine ⟨fun h => (by rw [key.1] at h; cases h), fun _ => ⟨i + d, key.2.1, fun F hF => ?_⟩⟩
      rw [loop_picks]
      exact loop_head hF hal hdr (fun x hx1 hx2 hx3 => ⟨key.2.2 x hx1 hx2 hx3, fun _ => hup x hx1 hx2 hx3, by rw [hmo]; simp, by rw [hmo]; simp⟩)
  | @lazy m ha hmo hm =>
    have hs := stepSpec_run cx m ha.one []
    rw [ha.test] at hs
    have hne : cs ≠ [] := by
      intro h
      have hs0 := fitsC_empty hf h
      rcases hlk with h' | h'
      · have hm := hm h'
        rw [hs0] at hm
        simp [meets, Sq.looks] at hm
      · unfold loopStout at h'
        rw [not_held hfix (by rw [hmo]; simp), hmo, hs0] at h'
        simp [Sq.empty] at h'
    have h0 : 0 < k.hiN := hbd.2
    simp only [run, runs] at e
    have hj : ∀ (st : St) (x : Nat), Good cx P st → st.pos = x → x < cx.query.length →
        ∃ st', dfsInj ((runs cx cs).map (fun c => c [])) st = some st' ∧ Good cx P st' ∧ (st'.accepted = true ↔ caps cx.query s x ≠ []) := by
      intro st x hg hx hlt
      obtain ⟨r, e1, hg1⟩ := hk st hg
      exact ⟨r, by rw [dfsInj_own, e1], hg1, agreesC_yes (hd st r x hg hx (Or.inr ⟨hne, hlt⟩) e1)⟩
    rcases lazy_look (W := fun x => caps cx.query s x ≠ []) hs hj hbd.1 h0 hg hi hacc e with ⟨h1, h2⟩ | ⟨d, h1, h2, h3, _, h4, h5, h6, h7⟩
    · refine ⟨fun _ x hx => ?_, fun h => by rw [h1] at h; cases h⟩
      obtain ⟨c, hc, rfl⟩ := loop_mem hx
      obtain ⟨h5, h6⟩ := counts_sub k _ c hc
      obtain ⟨h7, h8, h9⟩ := allowed h5 h6
      cases hcc : caps cx.query s (i + c) with
      | nil => rfl
      | cons y l => exact absurd (by rw [hcc]; simp) (h2 c h7 h8 h9)
    · have hdr := (inClass_runLen ..).1 h3
      have hal : Allowed k d := ⟨h1, (hiN_iff (by omega)).1 h2⟩
      refine ⟨fun h => (by rw [h4] at h; cases h), fun _ => ⟨i + d, h5, fun F hF => ?_⟩⟩
      rw [loop_picks]
      refine loop_head hF hal hdr (fun x hx1 hx2 hx3 => ?_)
      obtain ⟨h8, h9, h10⟩ := allowed hx1 hx2
      have hdx : d ≤ x := by
        by_cases hle : d ≤ x
        · exact hle
        · exact absurd hx3 (h6 x h8 (by omega))
      refine ⟨?_, by rw [hmo]; simp, fun _ => hdx, by rw [hmo]; simp⟩
      rcases h7 with h7 | h7
      · exact h7
      · by_cases hxd : x = d
        · rwa [← hxd]
        · exact absurd h10 (h7 x (by omega) h9)

/-! ## sequences -/

theorem doesC_dollar {n : Nat} (hn : cx.post.head? = some 0) {c : Node} (hc : ∀ st, run cx c [] st = eolMatch cx st) : DoesC cx P n (.nil true) [c] := by
  intro st st' i hg hi hacc e
  obtain ⟨r, e2, ha⟩ := does_dollar (P := P) hn hc st i hg hi (by rcases hacc with h | h; exact Or.inl h; exact Or.inr h.1)
  rw [run_alt_one] at e2
  simp only [runs, dfs] at e
  rw [e] at e2
  cases e2
  have : caps cx.query (.nil true) i = (Sq.picks cx.query (.nil true) i).map (fun x => (x, [])) := by simp only [caps]
  rw [this]
  unfold AgreesC
  cases hp : Sq.picks cx.query (.nil true) i with
  | nil => rw [hp] at ha; exact ha
  | cons y l => rw [hp] at ha; exact ⟨ha.1, ha.2, by simp⟩

theorem fixed_atom {a : Atom} (h : Plain a) (q : List Int) {k : Quant} {n : Nat} (h1 : k.lo = n) (h2 : k.hi = some n) (s : Sq) (i : Nat) :
    caps q (.cons a k s) i = if n ≤ runLen a.set (q.drop i) then caps q s (i + n) else [] := by
  rw [caps_atom h, counts_fixed h1 h2]
  split <;> simp

theorem capOk_rest {a : Atom} {k : Quant} {s : Sq} (h : (Sq.cons a k s).capOk = true) : s.capOk = true := by
  rcases capOk_cases h with h | ⟨_, _, _, _, _, h⟩ | ⟨_, _, _, _, _, h⟩
  · exact h.2.2.2.2
  · exact h
  · exact h

/-- One repetition of a group. -/
theorem inner_step {f : Bool} {n : Nat} {c : Bool} {as : Alts} {k : Quant} {s : Sq} {m : Node} (hi : Inner f n as c m) (hk : f = true ∨ as.robust = true) (hr : repOk c as k s = true)
    (hlen : cx.query.length < umax) (hq : ∀ c ∈ cx.query, c ∈ allChars) (hC : ∀ i a b, P.C i a b) (hN : c = true → n < P.n) :
    StepR cx P (as.picks cx.query) c n (run cx m []) := by
  have hb := rep_body hr
  have wh : ∀ {m : Node}, Whole f as.bodies m → ∀ (st : St) (i : Nat), Good cx P st → st.pos = i →
      ∃ st1, run cx m [] st = some st1 ∧ Good cx P st1 ∧ Agrees (as.picks cx.query i) st1 ∧ st1.groups[n]? = st.groups[n]? := by
    intro m hw st i hg hpos
    obtain ⟨st1, e, ha⟩ := whole_does (P := P) hw hk hb hlen hq hC st i hg hpos
    obtain ⟨hs1, hs2⟩ := whole_safe hw false (fun x hx h => by rw [(body_facts hb).dollar x hx] at h; cases h)
    refine ⟨st1, e, (run_good (P := P) (nul := false) (by simp) hC m hs1 (by simp [hs2]) [] (by simp)).get hg e, ha, ?_⟩
    have H : Steps [] (fun a b : St => b.groups[n]? = a.groups[n]?) :=
      ⟨fun _ => rfl, fun _ _ _ h1 h2 => h2.trans h1, fun _ _ _ => rfl, fun a i v hi => by simp at hi⟩
    exact run_steps H cx m (by rw [hs2]; simp) [] (by simp) st st1 e
  have bare : ∀ {m : Node}, Whole f as.bodies m → StepR cx P (as.picks cx.query) false n (run cx m []) := by
    intro m hw st i hg hpos
    obtain ⟨st1, e, hg1, ha, hgr⟩ := wh hw st i hg hpos
    refine ⟨st1, e, hg1, ?_⟩
    cases hl : as.picks cx.query i with
    | nil => rw [hl] at ha; exact ⟨ha, hgr⟩
    | cons y l => rw [hl] at ha; exact ⟨ha.1, ha.2, by simp⟩
  cases hi with
  | bare hw => exact bare hw
  | @simple m hw =>
    have : run cx (.simple m []) [] = run cx m [] := by
      funext st
      simp only [run, simpleMatch, runs, dfs]
      cases h : run cx m [] st with
      | none => rfl
      | some r => cases hr : r.accepted <;> simp [hr]
    rw [this]
    exact bare hw
  | @cap m hw =>
    intro st i hg hpos
    obtain ⟨st1, e, hg1, ha, hgr⟩ := wh hw st i hg hpos
    cases hl : as.picks cx.query i with
    | nil =>
      rw [hl] at ha
      have ha : st1.accepted = false := ha
      exact ⟨st1, by simp [run, groupMatch, runs, e, ha], hg1, ha, hgr⟩
    | cons y l =>
      rw [hl] at ha
      have hlt : n < st1.groups.length := by rw [hg1.len]; exact hN rfl
      refine ⟨{ st1 with groups := st1.groups.set n (some (st.pos, st1.pos)) }, by simp [run, groupMatch, runs, dfs, e, ha.1, hlt], good_cap hC hg hg1 n, ha.1, ha.2, fun _ => ?_⟩
      simp only [List.getElem?_set_self hlt, hpos, ha.2]

/-- What follows the repetitions. -/
theorem rep_after {f : Bool} {n : Nat} {c : Bool} {as : Alts} {k : Quant} {s : Sq} {cs : List Node} (hf : FitsC f (n + c.toNat) s cs) (hkn : KnownC f s) (hF : RepFacts c as k s)
    (hd : DoesC cx P (n + c.toNat) s cs) (hq : ∀ c ∈ cx.query, c ∈ allChars) {i : Nat} (hi : i ≤ cx.query.length) {p : Nat × Nat}
    (hp : (spans cx.query.length k (as.picks cx.query) i).head? = some p) {st st' : St} (hb : Behind cx P c n true p st) (ha : st.accepted = true)
    (e : dfs (runs cx cs) [] st = some st') : AgreesC (caps cx.query (.cons (.group c as) k s) i) n st' := by
  refine agreesC_head (l := (caps cx.query s p.2).map (fun r => (r.1, if c then p :: r.2 else r.2))) ?_ (rep_head hq hF (fitsC_plain hf) hi hp)
  have hag := hd st st' p.2 hb.good hb.pos (Or.inl ha) e
  unfold AgreesC at hag ⊢
  rw [List.head?_map]
  cases hc : (caps cx.query s p.2).head? with
  | none => rw [hc] at hag; exact hag
  | some r =>
    rw [hc] at hag
    refine ⟨hag.1, hag.2.1, fun j y hy => ?_⟩
    cases c with
    | false => exact hag.2.2 j y (by simpa using hy)
    | true =>
      simp only [if_true] at hy
      cases j with
      | zero =>
        simp only [List.getElem?_cons_zero, Option.some.injEq] at hy
        subst hy
        have := frameC hf hkn e n (by simp)
        simp only [Nat.add_zero]
        rw [this]
        exact hb.kept rfl rfl
      | succ j =>
        rw [show n + (j + 1) = n + true.toNat + j by simp; omega]
        exact hag.2.2 j y (by simpa using hy)

theorem hiN_pos {k : Quant} (h : k.sane = true) : k.lo ≤ k.hiN ∧ k.hiN ≠ 0 := by
  have h1 := (sane_bounds h).1
  refine ⟨h1, ?_⟩
  unfold Quant.hiN
  cases hh : k.hi with
  | none => simp [umax]
  | some x => have := sane_hi h x hh; simp; omega

theorem repPoss_does {f : Bool} {n : Nat} {c : Bool} {as : Alts} {m : Node} {k : Quant} {s : Sq} {cs : List Node} (hin : Inner f n as c m) (hk : f = true ∨ as.robust = true)
    (hf : FitsC f (n + c.toNat) s cs) (hkn : KnownC f s) (hr : repOk c as k s = true) (hd : DoesC cx P (n + c.toNat) s cs) (hlen : cx.query.length < umax)
    (hq : ∀ c ∈ cx.query, c ∈ allChars) (hC : ∀ i a b, P.C i a b) (hN : c = true → n < P.n) :
    DoesC cx P n (.cons (.group c as) k s) [.possessive m k.lo k.hiN cs] := by
  intro st st' i hg hi hacc e
  have hF := rep_facts hr
  have hil : i ≤ cx.query.length := by have := hg.pos; rw [hi] at this; have := this.2; unfold Ctx.qend at this; omega
  have hspan := rep_spans hq hlen hF hil
  have hpos := hiN_pos hF.sane
  simp only [runs, dfs, run, possessiveMatch] at e
  obtain ⟨ok, st1, e1, h1⟩ := poss_reps (inner_step (s := s) (k := k) hin hk hr hlen hq hC hN) k.lo k.hiN 0 st (i, i) false ⟨hg, hi, by simp⟩
  rw [e1] at e
  rcases h1 with ⟨rfl, h2, h3, h4⟩ | ⟨rfl, h2, _, h3⟩
  · simp only at e
    have hlo : k.lo ≤ (chain (as.picks cx.query) k.hiN (i, i)).1 := by omega
    rw [if_pos hlo] at hspan
    refine rep_after hf hkn hF hd hq hil hspan ⟨h3.good, h3.pos, fun hc _ => h3.kept hc ?_⟩ (h4 (Or.inr hpos.2)) e
    have := hF.taken hc
    simp only [Bool.false_or, bne_iff_ne]; omega
  · simp only [Option.some.injEq] at e
    subst e
    rw [if_neg (by omega), List.head?_eq_none_iff] at hspan
    exact agreesC_no (by simp only [caps, hspan, List.flatMap_nil]) h3

theorem repExact_does {f : Bool} {n : Nat} {c : Bool} {as : Alts} {m : Node} {d : List Int} {md : QMode} {s : Sq} {cs : List Node} (hin : Inner f n as c m) (hk : f = true ∨ as.robust = true)
    (hf : FitsC f (n + c.toNat) s cs) (hkn : KnownC f s) (hpos : 0 < (decimal d).toNat) (hr : repOk c as (.exact d md) s = true) (hd : DoesC cx P (n + c.toNat) s cs)
    (hlen : cx.query.length < umax) (hq : ∀ c ∈ cx.query, c ∈ allChars) (hC : ∀ i a b, P.C i a b) (hN : c = true → n < P.n) :
    DoesC cx P n (.cons (.group c as) (.exact d md) s) [.repeated m (decimal d).toNat cs] := by
  intro st st' i hg hi hacc e
  have hF := rep_facts hr
  have hil : i ≤ cx.query.length := by have := hg.pos; rw [hi] at this; have := this.2; unfold Ctx.qend at this; omega
  have hspan := rep_spans hq hlen hF hil
  have hlo : (Quant.exact d md).lo = (decimal d).toNat := rfl
  have hhi : (Quant.exact d md).hiN = (decimal d).toNat := rfl
  rw [hlo, hhi] at hspan
  have hle := chain_le (as.picks cx.query) (decimal d).toNat (i, i)
  simp only [runs, dfs, run, repeatedMatch] at e
  obtain ⟨ok, st1, e1, h1⟩ := rep_reps (inner_step (s := s) (k := .exact d md) hin hk hr hlen hq hC hN) (decimal d).toNat st (i, i) false ⟨hg, hi, by simp⟩
  rw [e1] at e
  rcases h1 with ⟨rfl, h2, h3, h4⟩ | ⟨rfl, h2, h3⟩
  · simp only at e
    rw [if_pos (by omega)] at hspan
    refine rep_after hf hkn hF hd hq hil hspan ⟨h3.good, h3.pos, fun hc _ => h3.kept hc ?_⟩ (h4 (Or.inr (by omega))) e
    simp only [Bool.false_or, bne_iff_ne]; omega
  · simp only [Option.some.injEq] at e
    subst e
    rw [if_neg (by omega), List.head?_eq_none_iff] at hspan
    exact agreesC_no (by simp only [caps, hspan, List.flatMap_nil]) h3

theorem fitsC_does {f : Bool} {n : Nat} {s : Sq} {cs : List Node} (hf : FitsC f n s cs) (hkn : KnownC f s) (hr : s.capOk = true) (hlen : cx.query.length < umax)
    (hq : ∀ c ∈ cx.query, c ∈ allChars) (hn : s.dollar = true → cx.post.head? = some 0) (hC : ∀ i a b, P.C i a b) (hN : n + s.count ≤ P.n) : DoesC cx P n s cs := by
  induction hf with
  | nil =>
    intro st st' i hg hi ha e
    simp only [ne_eq, not_true_eq_false, false_and, or_false] at ha
    simp only [runs, dfs, Option.some.injEq] at e
    subst e
    exact ⟨ha, hi, by simp⟩
  | dollar =>
    refine doesC_dollar (hn rfl) (fun st => ?_)
    simp only [run, simpleMatch, runs, dfs]
    cases eolMatch cx st with
    | none => rfl
    | some r => cases hr : r.accepted <;> simp [hr]
  | dollar' => exact doesC_dollar (hn rfl) (fun st => by simp only [run])
  | @once n a m s cs hp ha hf ih =>
    have hd := ih hkn.rest (capOk_rest hr) hn (by simp only [Sq.count] at hN; omega)
    intro st st' i hg hi hacc e
    have hb := hg.pos
    rw [hi] at hb
    have hil : i ≤ cx.query.length := by have := hb.2; unfold Ctx.qend at this; omega
    have hs := stepSpec_run cx m ha.one []
    rw [ha.test] at hs
    rw [fixed_atom hp _ (n := 1) rfl rfl]
    simp only [runs, dfs, run, simpleMatch] at e
    by_cases hc : InClass cx.query a.set i 1
    · rw [if_pos ((inClass_runLen ..).1 hc)]
      rw [hs.yes st i hi hc] at e
      simp only [if_true] at e
      have hle := inClass_len hc hil
      split at e
      · simp at e
      · rename_i st2 h2
        have ha := hd _ st2 (i + 1) (hg.both (p := ((i + 1 : Nat) : Int)) true (by omega) (by unfold Ctx.qend; omega)) rfl (Or.inl rfl) h2
        split at e
        · cases e; exact ha
        · rename_i hna
          cases e
          exact agreesC_no (agreesC_nil ha (by simpa using hna)) (by simpa using hna)
    · rw [if_neg (fun h => hc ((inClass_runLen ..).2 h))]
      obtain ⟨r, e1, h1, _⟩ := hs.no st i hi hc
      rw [e1] at e
      simp only [h1, Bool.false_eq_true, if_false, Option.some.injEq] at e
      subst e
      exact h1
  | @last n a m hp ha =>
    intro st st' i hg hi hacc e
    have hs := stepSpec_run cx m ha.one []
    rw [ha.test] at hs
    rw [fixed_atom hp _ (n := 1) rfl rfl]
    simp only [runs, dfs] at e
    by_cases hc : InClass cx.query a.set i 1
    · rw [if_pos ((inClass_runLen ..).1 hc)]
      rw [hs.yes st i hi hc] at e
      cases e
      exact ⟨rfl, rfl, by simp⟩
    · rw [if_neg (fun h => hc ((inClass_runLen ..).2 h))]
      obtain ⟨r, e1, h1, _⟩ := hs.no st i hi hc
      rw [e1] at e
      cases e
      exact h1
  | @exact n a m s cs d md hp ha hf hpos ih =>
    have hd := ih hkn.rest (capOk_rest hr) hn (by simp only [Sq.count] at hN; omega)
    intro st st' i hg hi hacc e
    have hb := hg.pos
    rw [hi] at hb
    have hil : i ≤ cx.query.length := by have := hb.2; unfold Ctx.qend at this; omega
    have hs := stepSpec_run cx m ha.one []
    rw [ha.test] at hs
    rw [fixed_atom hp _ (n := (decimal d).toNat) rfl rfl]
    simp only [runs, dfs, run, repeatedMatch] at e
    by_cases hc : InClass cx.query a.set i (decimal d).toNat
    · rw [if_pos ((inClass_runLen ..).1 hc)]
      rw [repS_yes hs _ st i hi hc, if_neg (by omega)] at e
      have hle := inClass_len hc hil
      exact hd _ st' _ (hg.both (p := ((i + (decimal d).toNat : Nat) : Int)) true (by omega) (by unfold Ctx.qend; omega)) rfl (Or.inl rfl) e
    · rw [if_neg (fun h => hc ((inClass_runLen ..).2 h))]
      obtain ⟨r, e1, h1⟩ := repS_no hs _ st i hi hc
      rw [e1] at e
      cases e
      exact h1
  | @possessive n a m k s cs hp ha hf h1 h2 ih =>
    have hd := ih hkn.rest (capOk_rest hr) hn (by simp only [Sq.count] at hN; omega)
    have hck : k.sane = true ∧ atomOk a k s = true := by
      rcases capOk_cases hr with ⟨_, _, hsane, hok, hr'⟩ | ⟨c, as, rfl, _⟩ | ⟨c, as, rfl, _⟩
      · exact ⟨hsane, hok⟩
      · simp [Plain, Atom.steady, Atom.skips] at hp
      · simp [Plain, Atom.steady, Atom.skips] at hp
    obtain ⟨hsane, hok⟩ := hck
    have hpl := fitsC_plain hf
    intro st st' i hg hi hacc e
    have hb := hg.pos
    rw [hi] at hb
    have hil : i ≤ cx.query.length := by have := hb.2; unfold Ctx.qend at this; omega
    have hbd := sane_bounds hsane
    have hav := runLen_le cx.query a.set i hil
    have hs := stepSpec_run cx m ha.one []
    rw [ha.test] at hs
    rw [caps_atom hp]
    simp only [run, possessiveMatch, runs, dfs] at e
    obtain ⟨d, hd1, hd2, hd3, e1, e2⟩ := poss_char hs k.lo k.hiN 0 st i hi
    rw [hi] at e
    have hdr := (inClass_runLen ..).1 hd2
    by_cases hlo : k.lo ≤ d
    · rw [e1 (Or.inr (by omega)), if_neg (by omega)] at e
      have hag := hd _ st' (i + d) (hg.both (p := ((i + d : Nat) : Int)) true (by omega) (by unfold Ctx.qend; omega)) rfl (Or.inl rfl) e
      have htop : k.top (runLen a.set (cx.query.drop i)) = d := by
        apply Nat.le_antisymm
        · have ht := (le_top k (k.top (runLen a.set (cx.query.drop i))) _).1 (Nat.le_refl _)
          by_cases hle : k.top (runLen a.set (cx.query.drop i)) ≤ d
          · exact hle
          · have h1 := (hiN_iff (k := k) (n := k.top (runLen a.set (cx.query.drop i))) (by omega)).2 ht.1
            exact absurd ((inClass_runLen ..).2 (by omega : d + 1 ≤ _)) (hd3 (by omega))
        · exact (le_top ..).2 ⟨(hiN_iff (by omega)).1 hd1, hdr⟩
      rw [← htop] at hag
      have works : k.mode ≠ .possessive → ∀ x, Allowed k x → x ≤ runLen a.set (cx.query.drop i) → caps cx.query s (i + x) ≠ [] →
          s.voids = true ∨ x = k.top (runLen a.set (cx.query.drop i)) := by
        intro hm x h3 h4 h5
        have hcond : s.voids = true ∨ meets a.set s.begins = false := by
          unfold atomOk at hok
          rw [h1, h2] at hok
          cases hmo : k.mode with
          | possessive => exact absurd hmo hm
          | greedy => rw [hmo] at hok; simpa using hok
          | lazy => rw [hmo] at hok; simp at hok; exact Or.inr hok.2
        exact top_caps hq hpl hcond hil ((le_top ..).2 ⟨h3.2, h4⟩) (by omega) h5
      refine agreesC_head hag (head_top (f := fun n => caps cx.query s (i + n)) (by omega) (fun hm x h3 h4 h5 => ?_) (fun hm x h3 h4 h5 => ?_))
      · rcases works (by rw [hm]; simp) x h3 h4 h5 with h | h
        · exact voids_caps _ s hpl h _
        · rwa [← h]
      · rcases works (by rw [hm]; simp) x h3 h4 h5 with h | h
        · unfold atomOk at hok
          rw [hm, h1, h2] at hok; simp [h] at hok
        · exact h
    · obtain ⟨r, e3, hr⟩ := e2 (by omega) (by omega)
      rw [e3] at e
      simp only [Option.some.injEq] at e
      subst e
      refine agreesC_no (counts_nil (fun x h3 h4 => ?_)) hr
      have h5 := h3.1
      exact absurd (inClass_mono ((inClass_runLen ..).2 h4) (by omega : d + 1 ≤ x)) (hd3 (by omega))
  | @greedy n a m k s cs hp ha hf h1 h2 h3 ih =>
    have hN' : n + s.count ≤ P.n := by simp only [Sq.count] at hN; omega
    have hd := ih hkn.rest (capOk_rest hr) hn hN'
    have hck : k.sane = true ∧ atomOk a k s = true := by
      rcases capOk_cases hr with ⟨_, _, hsane, hok, hr'⟩ | ⟨c, as, rfl, _⟩ | ⟨c, as, rfl, _⟩
      · exact ⟨hsane, hok⟩
      · simp [Plain, Atom.steady, Atom.skips] at hp
      · simp [Plain, Atom.steady, Atom.skips] at hp
    obtain ⟨hsane, hok⟩ := hck
    intro st st' i hg hi hacc e
    have hb := hg.pos
    rw [hi] at hb
    have hil : i ≤ cx.query.length := by have := hb.2; unfold Ctx.qend at this; omega
    have hbd := sane_bounds hsane
    have hav := runLen_le cx.query a.set i hil
    obtain ⟨hsol, hst, hopt⟩ := knownC_greedy hp hkn h1 h2 h3 hok
    have hcase : (cs ≠ [] ∧ cleans cs = true) ∨ cs = [] := by
      rcases (by simpa only [Bool.or_eq_true] using hsol : s.solid = true ∨ s.empty = true) with h | h
      · exact Or.inl ⟨(fitsC_solid hf h).1, (fitsC_solid hf h).2.1⟩
      · right
        cases s with
        | cons => simp [Sq.empty] at h
        | nil d => cases d <;> simp [Sq.empty] at h; cases hf; rfl
    have hopt : optPath m k.lo k.hiN = false := by
      cases ho : optPath m k.lo k.hiN with
      | false => rfl
      | true => exact absurd ⟨((optPath_iff ..).1 ho).1, ((optPath_iff ..).1 ho).2.1⟩ (hi_one hopt)
    simp only [runs, dfs] at e
    rw [run_greedy_loop cx cs hopt, charStep_of (ha.steady hst) [], ha.test] at e
    have hbt : greedyBacktrack (runs cx cs) [] = dfs (runs cx cs) [] := by
      funext st
      rcases hcase with ⟨hne, _⟩ | rfl
      · have : (runs cx cs).isEmpty = false := by rw [runs_isEmpty]; simpa using hne
        simp [greedyBacktrack, this]
      · simp [greedyBacktrack, runs, dfsInj, dfs]
    have hj := judge_of hd (goodC hC hf hkn.rest hn hN')
    have hcl : cleans cs = true := by
      rcases hcase with ⟨_, h⟩ | rfl
      · exact h
      · rfl
    have hc := clean_dfs (runs cx cs) [] (runs_clean cx cs hcl)
    rw [← hbt] at hj hc
    have allowed : ∀ {d}, Allowed k d → d ≤ runLen a.set (cx.query.drop i) → k.lo ≤ d ∧ d ≤ k.hiN ∧ InClass cx.query a.set i d :=
      fun h1 h2 => ⟨h1.1, (hiN_iff (by omega)).2 h1.2, (inClass_runLen ..).2 h2⟩
    rw [caps_atom hp]
    rcases greedy_from hj hc hbd.1 hg hi e with ⟨h5, h6⟩ | ⟨d, h5, h6, h7, h8, h9⟩
    · refine agreesC_no (counts_nil (fun x h7 h8 => ?_)) h6
      exact absurd (inClass_mono ((inClass_runLen ..).2 h8) h7.1) h5
    · have hdr := (inClass_runLen ..).1 h7
      have hal : Allowed k d := ⟨h5, (hiN_iff (by omega)).1 h6⟩
      have hup : ∀ x, Allowed k x → x ≤ runLen a.set (cx.query.drop i) → caps cx.query s (i + x) ≠ [] → x ≤ d := by
        intro x hx1 hx2 hx3
        obtain ⟨_, h10, h11⟩ := allowed hx1 hx2
        by_cases hle : x ≤ d
        · exact hle
        · exact absurd hx3 (h8 x (by omega) h10 h11)
      have hfr : From cx P (dfs (runs cx cs) []) (i + d) st' ∧ (st'.accepted = true ∨ d = k.lo) := by
        rcases h9 with ⟨h9, h10⟩ | ⟨h9, h10⟩
        · rw [hbt] at h9; exact ⟨h9, Or.inl h10⟩
        · exact ⟨h10, Or.inr h9⟩
      have hag := from_agrees hd hfr.1
      refine agreesC_head hag (loop_head (fun x => Iff.rfl) hal hdr (fun x hx1 hx2 hx3 => ⟨?_, fun _ => hup x hx1 hx2 hx3, by rw [h2]; simp, by rw [h2]; simp⟩))
      rcases hfr.2 with h | h
      · exact (agreesC_yes hag).1 h
      · have := hup x hx1 hx2 hx3
        have := hx1.1
        rwa [show d = x by omega]
  | @lazy n a m k s cs hp ha hf h1 h2 h3 ih =>
    have hN' : n + s.count ≤ P.n := by simp only [Sq.count] at hN; omega
    have hd := ih hkn.rest (capOk_rest hr) hn hN'
    have hck : k.sane = true ∧ atomOk a k s = true := by
      rcases capOk_cases hr with ⟨_, _, hsane, hok, hr'⟩ | ⟨c, as, rfl, _⟩ | ⟨c, as, rfl, _⟩
      · exact ⟨hsane, hok⟩
      · simp [Plain, Atom.steady, Atom.skips] at hp
      · simp [Plain, Atom.steady, Atom.skips] at hp
    obtain ⟨hsane, hok⟩ := hck
    intro st st' i hg hi hacc e
    have hb := hg.pos
    rw [hi] at hb
    have hil : i ≤ cx.query.length := by have := hb.2; unfold Ctx.qend at this; omega
    have hbd := sane_bounds hsane
    have hav := runLen_le cx.query a.set i hil
    obtain ⟨hne, hcl, hff⟩ := fitsC_solid hf (knownC_lazy hp hkn h1 h2 h3 hok)
    have hs := stepSpec_run cx m ha.one []
    rw [ha.test] at hs
    simp only [runs, dfs, run] at e
    have hj := judge_of hd (goodC hC hf hkn.rest hn hN')
    have hc := clean_dfs (runs cx cs) [] (runs_clean cx cs hcl)
    have hfl := runs_flagFree cx cs hff []
    have hem : (runs cx cs).isEmpty = false := by rw [runs_isEmpty]; simpa using hne
    have allowed : ∀ {d}, Allowed k d → d ≤ runLen a.set (cx.query.drop i) → k.lo ≤ d ∧ d ≤ k.hiN ∧ InClass cx.query a.set i d :=
      fun h1 h2 => ⟨h1.1, (hiN_iff (by omega)).2 h1.2, (inClass_runLen ..).2 h2⟩
    rw [caps_atom hp]
    rcases lazy_from hs hem hj hc hfl hbd.1 hg hi e with ⟨h5, h6⟩ | ⟨d, h5, h6, h7, h8, h9, h10⟩
    · refine agreesC_no (counts_nil (fun x h7 h8 => ?_)) h5
      obtain ⟨h9, h10, h11⟩ := allowed h7 h8
      cases hcc : caps cx.query s (i + x) with
      | nil => rfl
      | cons y l => exact absurd (by rw [hcc]; simp) (h6 x h9 h10 h11)
    · have hdr := (inClass_runLen ..).1 h7
      have hal : Allowed k d := ⟨h5, (hiN_iff (by omega)).1 h6⟩
      have hag := from_agrees hd h9
      have hw := (agreesC_yes hag).1 h10
      refine agreesC_head hag (loop_head (fun x => Iff.rfl) hal hdr (fun x hx1 hx2 hx3 => ⟨hw, by rw [h2]; simp, fun _ => ?_, by rw [h2]; simp⟩))
      by_cases hle : d ≤ x
      · exact hle
      · exact absurd hx3 (h8 x hx1.1 (by omega))
  | @cap n as m s cs hw hf hb hx ih =>
    have hN1 : n + 1 + s.count ≤ P.n := by simp only [Sq.count, Atom.count, if_true] at hN; omega
    have hd := ih hkn.rest (capOk_rest hr) hn hN1
    have hkc := knownC_cap hkn (by simp only [bodyOk, Bool.and_eq_true] at hb; exact hb.1.1.1) hx
    refine cap_does hC hf hkn.rest (hkc.imp id (·.2.2)) (by omega) hd (fun st st1 i hg hi _ e => ?_)
    refine whole_leads hw (hkc.imp id (·.1)) hb (fitsC_plain hf) hlen hq hC _ ?_ hg hi e
    rcases hkc with h | ⟨_, h | h, _⟩
    · exact whole_calm hw (Or.inl h) cx _
    · have : cs = [] := by
        cases s with
        | cons => simp [Sq.empty] at h
        | nil d => cases d <;> simp [Sq.empty] at h; cases hf; rfl
      subst this
      rfl
    · exact whole_calm hw (shut_bodies (Or.inr h)) cx _
  | @capLoop n a k m s cs hl hf hk hb ih =>
    have hN1 : n + 1 + s.count ≤ P.n := by simp only [Sq.count, Atom.count, if_true] at hN; omega
    have hd := ih hkn.rest (capOk_rest hr) hn hN1
    have hkl := knownC_loop hkn
    exact cap_does hC hf hkn.rest hkl.2 (by omega) hd
      (fun st st1 i hg hi hacc e => loop_leads hl hk hb hkl.1 hf hkn.rest hd (goodC hC hf hkn.rest hn hN1) hC hn hN1 hlen hq hg hi hacc e)
  | @non n as m s cs hw hf hb ih =>
    have hN1 : n + s.count ≤ P.n := by simp only [Sq.count] at hN; omega
    have hd := ih hkn.rest (capOk_rest hr) hn hN1
    exact non_does hd (fun st st1 i hg hi _ e => whole_leads hw (knownC_non hkn) hb (fitsC_plain hf) hlen hq hC _ rfl hg hi e)
  | @nonLast n as m hw hb =>
    intro st st' i hg hi hacc e
    simp only [runs, dfs] at e
    obtain ⟨hg1, hl1, hl2⟩ := whole_leads hw (knownC_non hkn) hb rfl hlen hq hC [] rfl hg hi e
    cases hac : st'.accepted with
    | false =>
      refine agreesC_no ?_ hac
      simp only [caps_once, List.flatMap_eq_nil_iff, List.map_eq_nil_iff]
      intro x hx
      have := hl1 hac x hx
      simpa only [caps, List.map_eq_nil_iff] using this
    | true =>
      obtain ⟨x, hx, hF⟩ := hl2 hac
      have hh := hF (fun e => (caps cx.query (.nil false) e).map (fun r => (r.1, r.2))) (by intro x; simp)
      refine agreesC_head (l := (caps cx.query (.nil false) x).map (fun r => (r.1, r.2))) ?_ (by simp only [caps_once, Bool.false_eq_true, if_false] at hh ⊢; exact hh)
      exact ⟨hac, hx, by simp⟩
  | @repPoss n c as m k s cs hin hf hk hb ih =>
    have hcount : (Atom.group c as).count = c.toNat := by simp only [Atom.count, rep_count hb]; cases c <;> rfl
    have hN1 : n + c.toNat + s.count ≤ P.n := by simp only [Sq.count, hcount] at hN; omega
    have hd := ih hkn.rest (capOk_rest hr) hn hN1
    exact repPoss_does hin ((knownC_rep hkn (by rintro rfl; simp [Quant.fixed] at hk)).imp id (·.1)) hf hkn.rest hb hd hlen hq hC (fun hc => by subst hc; simp at hN1; omega)
  | repGreedy hff _ _ h1 h2 => exact (knownC_greedy_rep hff hkn h1 h2).elim
  | @repExact n c as m d md s cs hin hf hk hb ih =>
    have hcount : (Atom.group c as).count = c.toNat := by simp only [Atom.count, rep_count hb]; cases c <;> rfl
    have hN1 : n + c.toNat + s.count ≤ P.n := by simp only [Sq.count, hcount] at hN; omega
    have hd := ih hkn.rest (capOk_rest hr) hn hN1
    exact repExact_does hin ((knownC_rep hkn (by simp)).imp id (·.1)) hf hkn.rest hk hb hd hlen hq hC (fun hc => by subst hc; simp at hN1; omega)

end
end ERegex

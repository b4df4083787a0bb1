import Verif.Proofs.First
import Verif.Proofs.Decide
/-!
# Trees whose attempts succeed wherever their language has a match

`cm e t ff tv f ib dj` is a decidable condition on trees.  `G` is what the context needs at the end of the match.
`e` : the query may be empty; `ff` : the node may be entered with the flag false; `tv` : `G` is trivial; `f` : `G` implies
`f`; `ib` : functions may be injected; `dj` : the injected functions decide `G`.
-/
set_option autoImplicit false
namespace ERegex
open Spec

/-- Wherever `r` matches up to an offset with `G`, the run is accepted and ends at an offset with `G`. -/
def Cmp (cx : Ctx) (P : Par) (r : Rx) (ff : Bool) (G : Nat → Prop) (k : K) : Prop :=
  ∀ st, Good cx P st → (ff = false → st.accepted = true) → ∀ j, Den cx.query r (off st) j → G j →
    ∃ st', k st = some st' ∧ st'.accepted = true ∧ G (off st')

/-- The injected functions decide `G`. -/
def Dec (cx : Ctx) (P : Par) (inj : List K) (ff : Bool) (G : Nat → Prop) : Prop :=
  ∀ st, Good cx P st → (ff = false → st.accepted = true) → ∃ st', dfsInj inj st = some st' ∧ (st'.accepted = true ↔ G (off st))

/-- Later alternatives that cannot match where `c` does, or that end at the same offset. -/
def apart (c : Node) (f : Fol) (ds : List Node) : Bool :=
  ds.all (fun d => (first c .univ).disj (first d f) || ((width c).isSome && width c == width d))

mutual
/-- Trees whose language has the empty text, everywhere. -/
def nullable : Node → Bool
  | .simple m cs | .group m _ cs => nullable m && nullables cs
  | .alt cs => nullables cs
  | .greedy _ lo _ cs | .lazy _ lo _ cs | .possessive _ lo _ cs | .repeated _ lo cs => decide (lo = 0) && nullables cs
  | .exact s _ => s.isEmpty
  | _ => false
/-- The same for a continuation. -/
def nullables : List Node → Bool
  | [] => true
  | [c] => nullable c
  | c :: d :: cs => nullable c || nullables (d :: cs)
end

mutual
theorem nullable_den (q : List Int) : ∀ (t : Node), nullable t = true → ∀ i, Den q (toRx t) i i
  | .exact s _, h, i => by
    simp only [nullable, List.isEmpty_iff] at h; subst h
    simp [toRx, Den]
  | .range .., h, _ | .word, h, _ | .any, h, _ | .bos, h, _ | .eol, h, _ | .space, h, _ | .negated _, h, _ => by simp [nullable] at h
  | .simple m cs, h, i => by
    simp only [nullable, Bool.and_eq_true] at h
    exact ⟨i, nullable_den q m h.1 i, nullables_den q cs h.2 i⟩
  | .group m _ cs, h, i => by
    simp only [nullable, Bool.and_eq_true] at h
    exact ⟨i, nullable_den q m h.1 i, nullables_den q cs h.2 i⟩
  | .alt cs, h, i => by
    simp only [nullable] at h
    exact nullables_den q cs h i
  | .greedy m lo hi cs, h, i => by
    simp only [nullable, Bool.and_eq_true, decide_eq_true_eq] at h
    obtain ⟨rfl, h⟩ := h
    exact ⟨i, ⟨0, Nat.le_refl _, fun _ _ => Nat.zero_le _, rfl⟩, nullables_den q cs h i⟩
  | .lazy m lo hi cs, h, i => by
    simp only [nullable, Bool.and_eq_true, decide_eq_true_eq] at h
    obtain ⟨rfl, h⟩ := h
    exact ⟨i, ⟨0, Nat.le_refl _, fun _ _ => Nat.zero_le _, rfl⟩, nullables_den q cs h i⟩
  | .possessive m lo hi cs, h, i => by
    simp only [nullable, Bool.and_eq_true, decide_eq_true_eq] at h
    obtain ⟨rfl, h⟩ := h
    exact ⟨i, ⟨0, Nat.le_refl _, fun _ _ => Nat.zero_le _, rfl⟩, nullables_den q cs h i⟩
  | .repeated m lo cs, h, i => by
    simp only [nullable, Bool.and_eq_true, decide_eq_true_eq] at h
    obtain ⟨rfl, h⟩ := h
    exact ⟨i, ⟨0, Nat.le_refl _, fun _ _ => Nat.zero_le _, rfl⟩, nullables_den q cs h i⟩
theorem nullables_den (q : List Int) : ∀ (cs : List Node), nullables cs = true → ∀ i, Den q (contOf (toRxs cs)) i i
  | [], _, _ => rfl
  | [c], h, i => by
    simp only [nullables] at h
    rw [den_cont _ (by simp)]
    exact ⟨c, by simp, nullable_den q c h i⟩
  | c :: d :: cs, h, i => by
    simp only [nullables, Bool.or_eq_true] at h
    rw [den_cont _ (by simp)]
    rcases h with h | h
    · exact ⟨c, by simp, nullable_den q c h i⟩
    · have := nullables_den q (d :: cs) h i
      rw [den_cont _ (by simp)] at this
      obtain ⟨x, hx, hd⟩ := this
      exact ⟨x, by simp [List.mem_cons.1 hx], hd⟩
end

mutual
/-- Trees whose attempts succeed wherever their language has a match. -/
def cm (e : Bool) : Node → Bool → Bool → Fol → Bool → Bool → Bool
  | .exact s _, _, _, _, _, _ => !s.isEmpty
  | .range .., _, _, _, _, _ | .word, _, _, _, _, _ | .any, _, _, _, _, _ | .space, _, _, _, _, _ | .negated _, _, _, _, _, _
  | .eol, _, _, _, _, _ => true
  | .bos, _, _, _, _, _ => !e
  | .simple m cs, ff, tv, f, ib, dj => cm e m ff (tv && nullables cs) (firsts cs f) false false && cms e cs false tv f ib dj
  | .alt cs, ff, tv, f, ib, dj => cms e cs ff tv f ib dj
  | .greedy m lo hi cs, ff, tv, f, ib, dj =>
    decide (lo ≤ hi) &&
    (if optPath m lo hi then
      single m && (if cs.isEmpty then dj
        else cleans cs && (tv || (Fol.cls (setOf m)).disj (firsts cs f)) && cms e cs true tv f false false)
    else if single m then
      (if cs.isEmpty then tv || dj || (!ib && (Fol.cls (setOf m)).disj f)
        else cleans cs && (tv || (Fol.cls (setOf m)).disj (firsts cs f)) && cms e cs false tv f false false)
    else tv && (totals false cs || (nullables cs && cms e cs false tv f false false)) && (decide (lo = 0) || cm e m ff false .univ false false || (decide (lo = 1) && cm e m ff true .univ false false)))
  | .lazy m lo hi cs, ff, tv, f, ib, dj =>
    decide (lo ≤ hi) && ((oneCh m &&
    (if cs.isEmpty then (dj || (tv && !ib)) && (decide (lo ≠ 0) || !ff)
      else tv && cleans cs && (decide (lo ≠ 0) || !ff || flagFreeHead cs) && cms e cs false tv f false false)) ||
    (tv && (!cs.isEmpty || !ib) && (totals false cs || (nullables cs && cms e cs false tv f false false)) && (decide (lo ≠ 0) || !ff) &&
      (decide (lo = 0) || cm e m ff false .univ false false || (decide (lo = 1) && cm e m ff true .univ false false))))
  | .possessive m lo hi cs, ff, tv, f, ib, _ =>
    decide (lo ≤ hi) &&
    ((tv && (totals false cs || (nullables cs && cms e cs false tv f false false)) && (decide (hi ≠ 0) || !ff) &&
        (decide (lo = 0) || cm e m ff false .univ ib false || (decide (lo = 1) && cm e m ff true .univ ib false))) ||
     (cm e m ff false .univ ib false && snd ib false m && negOk m && decide (1 ≤ minSize m) && decide (hi ≠ 0) &&
        (first m .univ).disj (firsts cs f) && cms e cs false tv f false false))
  | .repeated m n cs, ff, tv, f, _, _ =>
    if n = 0 then cms e cs ff tv f false false
    else if n = 1 then cm e m ff (tv && nullables cs) (firsts cs f) false false && cms e cs false tv f false false
    else cm e m ff false .univ false false && cms e cs false tv f false false
  | .group m _ cs, ff, tv, f, ib, _ =>
    cm e m ff (tv && nullables cs) (firsts cs f) (!cs.isEmpty)
      (tv && !cs.isEmpty && snds false false cs && cleans cs.dropLast && cms e cs true true .univ false false) &&
    cms e cs false tv f (ib || !cs.isEmpty) false
/-- The same for a continuation. -/
def cms (e : Bool) : List Node → Bool → Bool → Fol → Bool → Bool → Bool
  | [], ff, _, _, _, _ => !ff
  | [c], ff, tv, f, ib, dj => cm e c ff tv f ib dj
  | c :: d :: ds, ff, tv, f, ib, dj =>
    cm e c ff tv f ib dj && clean c && (tv || (snd ib false c && apart c f (d :: ds))) && cms e (d :: ds) false tv f false false
end

section
variable {cx : Ctx} {P : Par}

theorem Cmp.weaken {r : Rx} {ff : Bool} {G : Nat → Prop} {k : K} (h : Cmp cx P r ff G k) : Cmp cx P r false G k :=
  fun st hg ha => h st hg (fun _ => ha rfl)

theorem verdict_cmp {b : K} {r : Rx} {G : Nat → Prop} (hc : Cmp cx P r false G b) {st : St} (h : Good cx P st) {x j : Nat}
    (h1 : st.pos ≤ x) (h2 : x ≤ cx.query.length) (hd : Den cx.query r x j) (hG : G j) :
    ∃ y, verdict b st (x : Int) = some (true, y) ∧ G y.toNat := by
  have hp := h.pos
  obtain ⟨s, e1, e2, e3⟩ := hc { st with pos := (x : Int), accepted := true }
    (h.both true (by omega) (by simp only [Ctx.qend]; omega)) (by simp) j (by simpa [off] using hd) hG
  exact ⟨s.pos, by simp [verdict, e1, e2], e3⟩

/-- Repetitions of a class: how many. -/
theorem rep_unpack {r rc : Rx} {p : Int → Bool} {lo hi i j : Nat} (hlen : cx.query.length < umax) (hil : i ≤ cx.query.length)
    (hr : ∀ q i j n, Iter (Den q r) n i j ↔ (j = i + n ∧ InClass q p i n)) (hd : Den cx.query (.seq (.rep r lo (boundOf hi)) rc) i j) :
    ∃ n, lo ≤ n ∧ n ≤ hi ∧ InClass cx.query p i n ∧ i + n ≤ cx.query.length ∧ Den cx.query rc (i + n) j := by
  simp only [Den] at hd
  obtain ⟨k, ⟨n, h1, h2, h3⟩, h4⟩ := hd
  obtain ⟨rfl, h5⟩ := (hr _ _ _ _).1 h3
  have := inClass_len h5 hil
  refine ⟨n, h1, ?_, h5, this, h4⟩
  by_cases hu : hi = umax
  · omega
  · exact h2 hi (by simp [boundOf, hu])

theorem simple_cmp {m : K} {cs : List M} {inj : List K} {rm rc : Rx} {ff : Bool} {G : Nat → Prop} (hg : GoodK cx P m)
    (hm : Cmp cx P rm ff (fun k => ∃ j, Den cx.query rc k j ∧ G j) m) (hd : Cmp cx P rc false G (dfs cs inj)) :
    Cmp cx P (.seq rm rc) ff G (simpleMatch m cs inj) := by
  intro st h ha j ⟨k, h1, h2⟩ hG
  obtain ⟨s1, e1, a1, j', d1, g1⟩ := hm st h ha k h1 ⟨j, h2, hG⟩
  obtain ⟨s2, e2, a2, g2⟩ := hd s1 (hg.get h e1) (fun _ => a1) j' d1 g1
  exact ⟨s2, by simp [simpleMatch, e1, a1, e2, a2], a2, g2⟩

/-- Greedy over a class. -/
theorem greedy_cmp {p : Int → Bool} {lo hi : Nat} {cs : List M} {inj : List K} {r rc : Rx} {ff : Bool} {G : Nat → Prop}
    (hr : ∀ q i j n, Iter (Den q r) n i j ↔ (j = i + n ∧ InClass q p i n)) (hlen : cx.query.length < umax)
    (hb : Rest (greedyBacktrack cs inj)) (hcl : Clean (greedyBacktrack cs inj)) (hR : Rest (dfs cs []))
    (hg : GoodK cx P (greedyMatch (charStep cx p) lo hi cs inj)) (hlh : lo ≤ hi)
    (hbc : Cmp cx P rc false G (greedyBacktrack cs inj)) (hdc : Cmp cx P rc false G (dfs cs []))
    (hor : (∀ st st', Good cx P st → st.accepted = true → greedyBacktrack cs inj st = some st' → st'.accepted = true → G (off st')) ∨
      (∀ x j, InClass cx.query p x 1 → Den cx.query rc x j → ¬ G j)) :
    Cmp cx P (.seq (.rep r lo (boundOf hi)) rc) ff G (greedyMatch (charStep cx p) lo hi cs inj) := by
  intro st h _ j hd hG
  obtain ⟨hn, hl⟩ := h.nat
  obtain ⟨n, n1, n2, n3, n4, n5⟩ := rep_unpack hlen hl hr hd
  obtain ⟨st', e, g'⟩ := hg st h
  refine ⟨st', e, ?_⟩
  rcases greedy_char hb hcl hR hlh hn e with ⟨h1, _⟩ | ⟨k, k1, k2, k3, k4, hk⟩
  · exact absurd (inClass_mono n3 n1) h1
  · have hnk : n ≤ k := by
      by_cases hc : n ≤ k
      · exact hc
      · exact absurd (inClass_mono n3 (by omega)) (k4 (by omega))
    obtain ⟨y, y1, y2⟩ := verdict_cmp hbc h (x := off st + n) (by omega) n4 n5 hG
    obtain ⟨w, w1, w2⟩ := verdict_cmp hdc h (x := off st + n) (by omega) n4 n5 hG
    have fin : n = lo → verdict (dfs cs []) st (off st + lo : Nat) = some (st'.accepted, st'.pos) → st'.accepted = true ∧ G (off st') := by
      intro hnl hv
      subst hnl
      rw [w1] at hv
      simp only [Option.some.injEq, Prod.mk.injEq] at hv
      exact ⟨hv.1.symm, by unfold off; rw [← hv.2]; exact w2⟩
    rcases hor with hB | hB
    · rcases hk with ⟨d, d1, d2, d3, d4, d5⟩ | ⟨hv, hrej⟩
      · obtain ⟨s, s1, s2, s3⟩ := verdict_some d3
        have hlen' := inClass_len (inClass_mono k3 d2) hl
        have hp := h.pos
        have := hB { st with pos := ((off st + d : Nat) : Int), accepted := true } s
          (h.both true (by omega) (by simp only [Ctx.qend]; omega)) rfl s1 s2
        exact ⟨d4, by unfold off at this ⊢; rw [← s3]; exact this⟩
      · refine fin ?_ hv
        by_cases hnl : n = lo
        · exact hnl
        · obtain ⟨z, hz⟩ := hrej n (by omega) hnk
          rw [y1] at hz; simp at hz
    · have hnk' : n = k := by
        by_cases hc : n = k
        · exact hc
        · refine absurd hG (hB (off st + n) j ?_ n5)
          exact (inClass_add (m := n) (n := 1)).1 (inClass_mono k3 (by omega)) |>.2
      subst hnk'
      rcases hk with ⟨d, d1, d2, d3, d4, d5⟩ | ⟨hv, hrej⟩
      · by_cases hdn : d = n
        · subst hdn
          rw [y1] at d3
          simp only [Option.some.injEq, Prod.mk.injEq, true_and] at d3
          exact ⟨d4, by unfold off; rw [← d3]; exact y2⟩
        · obtain ⟨z, hz⟩ := d5 n (by omega) (Nat.le_refl _)
          rw [y1] at hz; simp at hz
      · refine fin ?_ hv
        by_cases hnl : n = lo
        · exact hnl
        · obtain ⟨z, hz⟩ := hrej n (by omega) (Nat.le_refl _)
          rw [y1] at hz; simp at hz

/-- Greedy over a class, nothing required behind. -/
theorem greedy_cmp_tv {p : Int → Bool} {lo hi : Nat} {inj : List K} {r rc : Rx} {ff : Bool} {G : Nat → Prop}
    (hr : ∀ q i j n, Iter (Den q r) n i j ↔ (j = i + n ∧ InClass q p i n)) (hlen : cx.query.length < umax)
    (hb : Rest (greedyBacktrack [] inj)) (hg : GoodK cx P (greedyMatch (charStep cx p) lo hi [] inj)) (hlh : lo ≤ hi) (hG : ∀ j, G j) :
    Cmp cx P (.seq (.rep r lo (boundOf hi)) rc) ff G (greedyMatch (charStep cx p) lo hi [] inj) := by
  intro st h _ j hd _
  obtain ⟨hn, hl⟩ := h.nat
  obtain ⟨n, n1, n2, n3, n4, n5⟩ := rep_unpack hlen hl hr hd
  obtain ⟨st', e, g'⟩ := hg st h
  refine ⟨st', e, ?_, hG _⟩
  have hdn : Clean (dfs [] []) := by intro a b _ e _; simp only [dfs, Option.some.injEq] at e; rw [e]
  have hrn : Rest (dfs [] []) := rest_dfs cx [] [] (by simp)
  rcases greedy_char hb (backtrack_clean hdn) hrn hlh hn e with ⟨h1, _⟩ | ⟨k, k1, k2, k3, k4, hk⟩
  · exact absurd (inClass_mono n3 n1) h1
  · rcases hk with ⟨d, d1, d2, d3, d4, d5⟩ | ⟨hv, hrej⟩
    · exact d4
    · simp only [verdict, dfs, Option.map_some, Option.some.injEq, Prod.mk.injEq] at hv
      exact hv.1.symm

/-- `X?` for a class. -/
theorem optional_cmp {p : Int → Bool} {cs : List M} {inj : List K} {r rc : Rx} {ff : Bool} {G : Nat → Prop}
    (hr : ∀ q i j n, Iter (Den q r) n i j ↔ (j = i + n ∧ InClass q p i n)) (hlen : cx.query.length < umax)
    (hgb : GoodK cx P (greedyBacktrack cs inj)) (hcl : Clean (greedyBacktrack cs inj))
    (hbc : Cmp cx P rc true G (greedyBacktrack cs inj))
    (hor : (∀ st st', Good cx P st → greedyBacktrack cs inj st = some st' → st'.accepted = true → G (off st')) ∨
      (∀ x j, InClass cx.query p x 1 → Den cx.query rc x j → ¬ G j)) :
    Cmp cx P (.seq (.rep r 0 (boundOf 1)) rc) ff G (optionalMatch (charStep cx p) 1 cs inj) := by
  intro st h _ j hd hG
  obtain ⟨hn, hl⟩ := h.nat
  have hp := h.pos
  have hst := h.start
  obtain ⟨n, n1, n2, n3, n4, n5⟩ := rep_unpack hlen hl hr hd
  have hn01 : n = 0 ∨ n = 1 := by omega
  by_cases hin : InClass cx.query p (off st) 1
  · have hl1 := inClass_len hin hl
    have es := step_yes hn hin
    have g1 : Good cx P { st with pos := ((off st + 1 : Nat) : Int), accepted := true } :=
      h.both true (by omega) (by simp only [Ctx.qend]; omega)
    obtain ⟨s2, e2, g2⟩ := hgb _ g1
    simp only [optionalMatch, es, e2]
    by_cases ha2 : s2.accepted = true
    · rw [if_neg (by simp [ha2])]
      refine ⟨s2, rfl, ha2, ?_⟩
      rcases hor with hB | hB
      · exact hB _ s2 g1 e2 ha2
      · rcases hn01 with rfl | rfl
        · exact absurd hG (hB (off st) j hin (by simpa using n5))
        · obtain ⟨s3, e3, a3, g3⟩ := hbc _ g1 (by simp) j n5 hG
          rw [e2] at e3; simp only [Option.some.injEq] at e3; subst e3; exact g3
    · have hf2 : s2.accepted = false := by simpa using ha2
      have hpos := hcl _ s2 (by simp only; omega) e2 hf2
      simp only at hpos
      have hgt : s2.pos > s2.start := by rw [hpos, g2.start]; omega
      rw [if_pos (by simp [hf2]; omega)]
      have g3 : Good cx P { s2 with pos := s2.pos - (1 : Nat) } := g2.move (by rw [hpos]; omega) (by have := g2.pos; omega)
      have hoff : off { s2 with pos := s2.pos - (1 : Nat) } = off st := by
        show (s2.pos - (1 : Nat)).toNat = st.pos.toNat
        rw [hpos]; unfold off at *; omega
      rcases hn01 with rfl | rfl
      · obtain ⟨s4, e4, a4, g4⟩ := hbc _ g3 (by simp) j (by rw [hoff]; simpa using n5) hG
        exact ⟨s4, e4, a4, g4⟩
      · obtain ⟨s3, e3, a3, _⟩ := hbc _ g1 (by simp) j n5 hG
        rw [e2] at e3; simp only [Option.some.injEq] at e3; subst e3; exact absurd a3 ha2
  · have es := step_no hn hin
    have hn0 : n = 0 := by
      rcases hn01 with h | h
      · exact h
      · subst h; exact absurd n3 hin
    subst hn0
    have g1 : Good cx P { st with accepted := false } := h.flag false
    obtain ⟨s3, e3, a3, g3⟩ := hbc _ g1 (by simp) j (by simpa [off] using n5) hG
    refine ⟨s3, ?_, a3, g3⟩
    simp only [optionalMatch, es]
    rw [e3]
    simp [a3]

/-- Mandatory repetitions. -/
theorem rep_cmp {m : K} {r : Rx} {ff : Bool} (hg : GoodK cx P m) : ∀ (n : Nat),
    (∀ a, a < n → Cmp cx P r ff (fun k => ∃ j, Iter (Den cx.query r) a k j) m) → ∀ (st : St), Good cx P st →
    (ff = false → st.accepted = true) → ∀ j, Iter (Den cx.query r) n (off st) j →
    ∃ st', repLoop m n st = some (true, st') ∧ Good cx P st' ∧ (n ≠ 0 ∨ st.accepted = true → st'.accepted = true)
  | 0, _, st, h, _, j, _ => ⟨st, rfl, h, by simp⟩
  | n + 1, hm, st, h, ha, j, ⟨k, h1, h2⟩ => by
    obtain ⟨s1, e1, a1, j', hj'⟩ := hm n (by omega) st h ha k h1 ⟨j, h2⟩
    obtain ⟨s2, e2, g2, a2⟩ := rep_cmp hg n (fun a h => hm a (by omega)) s1 (hg.get h e1) (fun _ => a1) j' hj'
    exact ⟨s2, by simp [repLoop, e1, a1, e2], g2, fun _ => a2 (Or.inr a1)⟩

/-- Mandatory repetitions that end exactly where the text says. -/
theorem rep_hit {m : K} {r : Rx} {ff : Bool} (hg : GoodK cx P m) (hm : ∀ G, Cmp cx P r ff G m) : ∀ (n : Nat) (st : St), Good cx P st →
    (ff = false → st.accepted = true) → ∀ j, Iter (Den cx.query r) n (off st) j →
    ∃ st', repLoop m n st = some (true, st') ∧ Good cx P st' ∧ (n ≠ 0 ∨ st.accepted = true → st'.accepted = true) ∧ off st' = j
  | 0, st, h, _, j, hj => ⟨st, rfl, h, by simp, hj⟩
  | n + 1, st, h, ha, j, ⟨k, h1, h2⟩ => by
    obtain ⟨s1, e1, a1, hk⟩ := hm (fun x => x = k) st h ha k h1 rfl
    subst hk
    obtain ⟨s2, e2, g2, a2, o2⟩ := rep_hit hg hm n s1 (hg.get h e1) (fun _ => a1) j h2
    exact ⟨s2, by simp [repLoop, e1, a1, e2], g2, fun _ => a2 (Or.inr a1), o2⟩

theorem repeated_cmp {m : K} {n : Nat} {cs : List M} {inj : List K} {r rc : Rx} {ff : Bool} {G : Nat → Prop} (hg : GoodK cx P m)
    (hm : n = 0 ∨ ∀ G, Cmp cx P r ff G m) (hd : Cmp cx P rc (ff && decide (n = 0)) G (dfs cs [])) :
    Cmp cx P (.seq (.rep r n (some n)) rc) ff G (repeatedMatch m n cs inj) := by
  intro st h ha j hden hG
  simp only [Den] at hden
  obtain ⟨k, ⟨c, c1, c2, c3⟩, h2⟩ := hden
  have hc : c = n := by have := c2 n rfl; omega
  subst hc
  rcases hm with rfl | hm
  · simp only [Iter] at c3; subst c3
    obtain ⟨s, e, a, g⟩ := hd st h (by simpa using ha) j h2 hG
    exact ⟨s, by simp [repeatedMatch, repLoop, e], a, g⟩
  · obtain ⟨s1, e1, g1, a1, o1⟩ := rep_hit hg hm c st h ha k c3
    subst o1
    obtain ⟨s, e, a, g⟩ := hd s1 g1 (by
      intro hf
      apply a1
      by_cases hc0 : c = 0
      · right; apply ha; simpa [hc0] using hf
      · left; exact hc0) j h2 hG
    exact ⟨s, by simp [repeatedMatch, e1, e], a, g⟩

/-- `X{1}`. -/
theorem repeated_one_cmp {m : K} {cs : List M} {inj : List K} {r rc : Rx} {ff : Bool} {G : Nat → Prop} (hg : GoodK cx P m)
    (hm : Cmp cx P r ff (fun k => ∃ j, Den cx.query rc k j ∧ G j) m) (hd : Cmp cx P rc false G (dfs cs [])) :
    Cmp cx P (.seq (.rep r 1 (some 1)) rc) ff G (repeatedMatch m 1 cs inj) := by
  intro st h ha j hden hG
  simp only [Den] at hden
  obtain ⟨k, ⟨c, c1, c2, c3⟩, h2⟩ := hden
  have hc : c = 1 := by have := c2 1 rfl; omega
  subst hc
  obtain ⟨k', h1, h3⟩ := c3
  simp only [Iter] at h3; subst h3
  obtain ⟨s1, e1, a1, j', d1, g1⟩ := hm st h ha _ h1 ⟨j, h2, hG⟩
  obtain ⟨s2, e2, a2, g2⟩ := hd s1 (hg.get h e1) (fun _ => a1) j' d1 g1
  exact ⟨s2, by simp [repeatedMatch, repLoop, e1, a1, e2], a2, g2⟩

theorem rep_split {q : List Int} {r rc : Rx} {lo hi i j : Nat} (h : Den q (.seq (.rep r lo (boundOf hi)) rc) i j) :
    ∃ x, Iter (Den q r) lo i x := by
  simp only [Den] at h
  obtain ⟨k, ⟨n, n1, n2, n3⟩, _⟩ := h
  clear n2
  induction lo generalizing n i with
  | zero => exact ⟨i, rfl⟩
  | succ lo ih =>
    cases n with
    | zero => omega
    | succ n =>
      obtain ⟨y, y1, y2⟩ := n3
      obtain ⟨x, hx⟩ := ih n (by omega) y2
      exact ⟨x, y, y1, hx⟩

/-- Accepts when entered with the flag set, in the states of a search. -/
def Stays (cx : Ctx) (P : Par) (k : K) : Prop := ∀ st st', Good cx P st → st.accepted = true → k st = some st' → st'.accepted = true

/-- Greedy over anything, nothing required behind. -/
theorem greedy_cmp_any {m : K} {lo hi : Nat} {cs : List M} {inj : List K} {r rc : Rx} {ff : Bool} {G : Nat → Prop} (hg : GoodK cx P m)
    (hdg : GoodK cx P (dfs cs [])) (hT : Stays cx P (dfs cs []))
    (hgi : ∀ k ∈ inj, GoodK cx P k) (hm : ∀ a, a < lo → Cmp cx P r ff (fun k => ∃ j, Iter (Den cx.query r) a k j) m) (hG : ∀ j, G j) :
    Cmp cx P (.seq (.rep r lo (boundOf hi)) rc) ff G (greedyMatch m lo hi cs inj) := by
  intro st h ha j hd _
  obtain ⟨x, hx⟩ := rep_split hd
  obtain ⟨s1, e1, g1, _⟩ := rep_cmp hg lo hm st h ha x hx
  obtain ⟨k, s2, e2, g2⟩ := growLoop_good hg (hi - lo) lo s1 g1
  obtain ⟨b, s3, e3, g3⟩ := btLoop_good (backtrack_good hdg hgi) hg s1.pos g1.pos.1 (k - lo) s2 g2
  simp only [greedyMatch, e1, e2, e3]
  cases b with
  | true => exact ⟨s3, rfl, btLoop_acc _ _ _ e3, hG _⟩
  | false =>
    obtain ⟨s4, e4, _⟩ := hdg _ (g3.flag true)
    exact ⟨s4, e4, hT _ _ (g3.flag true) rfl e4, hG _⟩

/-- Lazy over anything, nothing required behind. -/
theorem lazy_cmp_any {m : K} {lo hi : Nat} {cs : List M} {inj : List K} {r rc : Rx} {ff : Bool} {G : Nat → Prop} (hg : GoodK cx P m)
    (hdg : GoodK cx P (dfs cs [])) (hT : Stays cx P (dfs cs [])) (hne : cs.isEmpty = true → inj = []) (hf : ff = false ∨ lo ≠ 0)
    (hm : ∀ a, a < lo → Cmp cx P r ff (fun k => ∃ j, Iter (Den cx.query r) a k j) m) (hG : ∀ j, G j) :
    Cmp cx P (.seq (.rep r lo (boundOf hi)) rc) ff G (lazyMatch cx m lo hi cs inj) := by
  intro st h ha j hd _
  obtain ⟨x, hx⟩ := rep_split hd
  obtain ⟨s1, e1, g1, a1⟩ := rep_cmp hg lo hm st h ha x hx
  have a1 : s1.accepted = true := a1 (by rcases hf with hf | hf; exact Or.inr (ha hf); exact Or.inl hf)
  have fin : ∃ st', dfs cs [] s1 = some st' ∧ st'.accepted = true ∧ G (off st') := by
    obtain ⟨s2, e2, _⟩ := hdg _ g1
    exact ⟨s2, e2, hT _ _ g1 a1 e2, hG _⟩
  simp only [lazyMatch, e1]
  cases hi - lo with
  | zero => simpa only [lazyLoop] using fin
  | succ n =>
    simp only [lazyLoop]
    by_cases hlt : s1.pos < cx.qend
    · rw [if_pos hlt]
      by_cases hcs : cs.isEmpty = true
      · rw [if_pos hcs, hne hcs]
        simp only [dfsInj, List.map_nil, dfs, a1, if_true]
        have : ({ s1 with accepted := true, pos := s1.pos } : St) = s1 := by cases s1; simp_all
        simpa [List.isEmpty_iff.1 hcs, dfs, this] using fin
      · rw [if_neg hcs]
        obtain ⟨s2, e2, a2, g2⟩ := fin
        simp only [e2, a2, if_true]
        exact ⟨s2, rfl, a2, g2⟩
    · rw [if_neg hlt]; exact fin

/-- Lazy over a class, a continuation behind, nothing required after it. -/
theorem lazy_cmp {m : K} {p : Int → Bool} (hm : StepSpec cx p m) {lo hi : Nat} {cs : List M} {inj : List K} {r rc : Rx} {ff : Bool}
    {G : Nat → Prop} (hr : ∀ q i j n, Iter (Den q r) n i j ↔ (j = i + n ∧ InClass q p i n)) (hlen : cx.query.length < umax)
    (hne : cs.isEmpty = false) (hR : Rest (dfs cs [])) (hcl : Clean (dfs cs [])) (hlh : lo ≤ hi)
    (hg : GoodK cx P (lazyMatch cx m lo hi cs inj)) (hf : ff = false ∨ 0 < lo ∨ FlagFree (dfs cs []))
    (hdc : Cmp cx P rc false G (dfs cs [])) (hG : ∀ j, G j) :
    Cmp cx P (.seq (.rep r lo (boundOf hi)) rc) ff G (lazyMatch cx m lo hi cs inj) := by
  intro st h ha j hd hGj
  obtain ⟨hn, hl⟩ := h.nat
  obtain ⟨n, n1, n2, n3, n4, n5⟩ := rep_unpack hlen hl hr hd
  obtain ⟨st', e, g'⟩ := hg st h
  refine ⟨st', e, ?_, hG _⟩
  obtain ⟨_, h2⟩ := lazy_smallest hm hne hR hcl hlh hn hl (by rcases hf with hf | hf; exact Or.inl (ha hf); exact Or.inr hf) e
  cases hacc : st'.accepted with
  | true => rfl
  | false =>
    obtain ⟨y, hy⟩ := h2 hacc n n1 n2 n3
    obtain ⟨w, w1, _⟩ := verdict_cmp hdc h (x := off st + n) (by omega) n4 n5 hGj
    rw [w1] at hy; simp at hy

/-- Lazy over a class whose end the injected functions decide. -/
theorem lazyLoop_dec {m : K} {p : Int → Bool} (hm : StepSpec cx p m) (hgm : GoodK cx P m) {inj : List K} {start : Int} {G : Nat → Prop}
    (hgi : GoodK cx P (dfsInj inj)) (hdec : Dec cx P inj false G) : ∀ (n : Nat) (st : St) (a : Nat), Good cx P st → st.accepted = true →
    a ≤ n → InClass cx.query p (off st) a → G (off st + a) →
    ∃ st', lazyLoop cx m [] inj start n st = some (false, st') ∧ st'.accepted = true ∧ G (off st') := by
  intro n
  induction n with
  | zero =>
    intro st a h ha hle hin hG
    have : a = 0 := by omega
    subst this
    exact ⟨st, rfl, ha, hG⟩
  | succ n ih =>
    intro st a h ha hle hin hG
    obtain ⟨hn, hl⟩ := h.nat
    have hal := inClass_len hin hl
    simp only [lazyLoop]
    by_cases hlt : st.pos < cx.qend
    · rw [if_pos hlt]
      simp only [List.isEmpty_nil, if_true]
      obtain ⟨s1, e1, hiff⟩ := hdec st h (fun _ => ha)
      rw [e1]
      simp only
      have g1 := hgi.get h e1
      have gm : Good cx P { s1 with pos := st.pos } := g1.move h.pos.1 h.pos.2
      by_cases ha1 : s1.accepted = true
      · rw [if_pos ha1]
        exact ⟨_, rfl, ha1, by simpa [off] using hiff.1 ha1⟩
      · rw [if_neg ha1]
        cases a with
        | zero => exact absurd (hiff.2 hG) ha1
        | succ a =>
          have hin1 : InClass cx.query p (off st) 1 := inClass_mono hin (by omega)
          have es := hm.yes { s1 with pos := st.pos } (off st) hn hin1
          rw [es]
          simp only [if_true]
          have := ih { s1 with pos := ((off st + 1 : Nat) : Int), accepted := true } a (hgm.get gm es) rfl (by omega)
            (by
              have := ((inClass_add (m := 1) (n := a)).1 (by rw [Nat.add_comm 1 a]; exact hin)).2
              exact this)
            (by
              have : off { s1 with pos := ((off st + 1 : Nat) : Int), accepted := true } + a = off st + (a + 1) := by
                simp only [off]; omega
              rw [this]; exact hG)
          exact this
    · rw [if_neg hlt]
      have : a = 0 := by simp only [Ctx.qend] at hlt; omega
      subst this
      exact ⟨st, rfl, ha, hG⟩

theorem lazy_cmp_dec {m : K} {p : Int → Bool} (hm : StepSpec cx p m) (hgm : GoodK cx P m) {lo hi : Nat} {inj : List K} {r : Rx} {ff : Bool}
    {G : Nat → Prop} (hr : ∀ q i j n, Iter (Den q r) n i j ↔ (j = i + n ∧ InClass q p i n)) (hlen : cx.query.length < umax)
    (hgi : GoodK cx P (dfsInj inj)) (hdec : Dec cx P inj false G) (hf : ff = false ∨ 0 < lo) :
    Cmp cx P (.seq (.rep r lo (boundOf hi)) .eps) ff G (lazyMatch cx m lo hi [] inj) := by
  intro st h ha j hd hG
  obtain ⟨hn, hl⟩ := h.nat
  obtain ⟨n, n1, n2, n3, n4, n5⟩ := rep_unpack hlen hl hr hd
  simp only [Den] at n5
  subst n5
  have hlo : InClass cx.query p (off st) lo := inClass_mono n3 n1
  have es := repS_yes hm lo st (off st) hn hlo
  have hfl : (if lo = 0 then st.accepted else true) = true := by
    rcases hf with hf | hf
    · simp [ha hf]
    · rw [if_neg (by omega)]
  rw [hfl] at es
  have hp := h.pos
  have g1 : Good cx P { st with pos := ((off st + lo : Nat) : Int), accepted := true } :=
    h.both true (by omega) (by simp only [Ctx.qend]; omega)
  obtain ⟨s2, e2, a2, g2⟩ := lazyLoop_dec hm hgm (start := st.pos) hgi hdec (hi - lo) _ (n - lo) g1 rfl (by omega)
    (by
      have := ((inClass_add (m := lo) (n := n - lo)).1 (by rw [Nat.add_sub_cancel' n1]; exact n3)).2
      exact this)
    (by
      have : off { st with pos := ((off st + lo : Nat) : Int), accepted := true } + (n - lo) = off st + n := by simp only [off]; omega
      rw [this]; exact hG)
  exact ⟨s2, by simp only [lazyMatch, es, e2, dfs], a2, g2⟩

/-- The possessive loop ends exactly where the text says. -/
theorem possLoop_hit {m : K} {r : Rx} {ff : Bool} {lo : Nat} (hg : GoodK cx P m) (hm : ∀ G, Cmp cx P r ff G m) (hs : Snd cx P r false m) :
    ∀ (n c a : Nat) (st : St), Good cx P st → (ff = false → st.accepted = true) → a ≤ n → lo ≤ c + a → (st.accepted = true ∨ 0 < n) →
    ∀ j, Iter (Den cx.query r) a (off st) j → (∀ k, ¬ Den cx.query r j k) →
    ∃ st', possLoop m lo n c st.pos st = some (true, st') ∧ Good cx P st' ∧ st'.accepted = true ∧ off st' = j := by
  intro n
  induction n with
  | zero =>
    intro c a st h ha hle hlo hacc j hj hno
    have : a = 0 := by omega
    subst this
    exact ⟨st, rfl, h, by rcases hacc with h | h; exact h; omega, hj⟩
  | succ n ih =>
    intro c a st h ha hle hlo hacc j hj hno
    cases a with
    | zero =>
      simp only [Iter] at hj; subst hj
      obtain ⟨s1, e1, g1⟩ := hg st h
      have hn1 : s1.accepted ≠ true := fun ha1 => hno _ (hs st s1 h (by simp) e1 ha1)
      simp only [possLoop, e1, if_neg hn1, if_neg (show ¬ c < lo by omega)]
      exact ⟨_, rfl, g1.both true h.pos.1 h.pos.2, rfl, rfl⟩
    | succ a =>
      obtain ⟨k, h1, h2⟩ := hj
      obtain ⟨s1, e1, a1, hk⟩ := hm (fun x => x = k) st h ha k h1 rfl
      subst hk
      simp only [possLoop, e1, a1, if_true]
      exact ih (c + 1) a s1 (hg.get h e1) (fun _ => a1) (by omega) (by omega) (Or.inl a1) j h2 hno

theorem poss_cmp {m : M} {lo hi : Nat} {cs : List M} {inj : List K} {r rc : Rx} {ff : Bool} {G : Nat → Prop} (hg : GoodK cx P (m inj))
    (hm : ∀ G, Cmp cx P r ff G (m inj)) (hs : Snd cx P r false (m inj)) (hlen : cx.query.length < umax)
    (hmin : ∀ i j, Den cx.query r i j → i + 1 ≤ j) (hhi : hi ≠ 0)
    (hdis : ∀ x k j, Den cx.query r x k → Den cx.query rc x j → ¬ G j)
    (hd : Cmp cx P rc false G (dfs cs [])) : Cmp cx P (.seq (.rep r lo (boundOf hi)) rc) ff G (possessiveMatch m lo hi cs inj) := by
  intro st h ha j hden hG
  obtain ⟨hn, hl⟩ := h.nat
  simp only [Den] at hden
  obtain ⟨k, ⟨n, n1, n2, n3⟩, h4⟩ := hden
  have hkl := (den_le cx.query (.rep r lo (boundOf hi)) (off st) k ⟨n, n1, n2, n3⟩).2 hl
  have hnk := iter_min (w := 1) hmin n (off st) k n3
  have hnh : n ≤ hi := by
    by_cases hu : hi = umax
    · omega
    · exact n2 hi (by simp [boundOf, hu])
  obtain ⟨s1, e1, g1, a1, o1⟩ := possLoop_hit (lo := lo) hg hm hs hi 0 n st h ha hnh (by omega) (Or.inr (by omega)) k n3
    (fun x hx => hdis k x j hx h4 hG)
  subst o1
  obtain ⟨s2, e2, a2, g2⟩ := hd s1 g1 (fun _ => a1) j h4 hG
  exact ⟨s2, by simp only [possessiveMatch, e1, e2], a2, g2⟩

theorem possLoop_any {m : K} {r : Rx} {ff : Bool} {lo : Nat} (hg : GoodK cx P m) :
    ∀ (n c a : Nat), (∀ b, b < a → Cmp cx P r ff (fun k => ∃ j, Iter (Den cx.query r) b k j) m) → ∀ (st : St), Good cx P st →
    (ff = false → st.accepted = true) → lo ≤ c + a → a ≤ n → (st.accepted = true ∨ 0 < n) →
    (∃ j, Iter (Den cx.query r) a (off st) j) → ∀ last, P.s ≤ last → last ≤ cx.qend →
    ∃ st', possLoop m lo n c last st = some (true, st') ∧ Good cx P st' ∧ st'.accepted = true := by
  intro n
  induction n with
  | zero =>
    intro c a _ st h ha _ _ hacc hj last _ _
    exact ⟨st, rfl, h, by rcases hacc with h | h; exact h; omega⟩
  | succ n ih =>
    intro c a hm st h ha hlo han hacc hj last hl1 hl2
    cases a with
    | zero =>
      obtain ⟨s1, e1, g1⟩ := hg st h
      simp only [possLoop, e1]
      by_cases ha1 : s1.accepted = true
      · rw [if_pos ha1]
        exact ih (c + 1) 0 (by intro b hb; omega) s1 g1 (fun _ => ha1) (by omega) (by omega) (Or.inl ha1) ⟨_, rfl⟩ _ g1.pos.1 g1.pos.2
      · rw [if_neg ha1, if_neg (show ¬ c < lo by omega)]
        exact ⟨_, rfl, g1.both true hl1 hl2, rfl⟩
    | succ a =>
      obtain ⟨j, k, h1, h2⟩ := hj
      obtain ⟨s1, e1, a1, hk⟩ := hm a (by omega) st h ha k h1 ⟨j, h2⟩
      have g1 := hg.get h e1
      simp only [possLoop, e1, a1, if_true]
      exact ih (c + 1) a (fun b hb => hm b (by omega)) s1 g1 (fun _ => a1) (by omega) (by omega) (Or.inl a1) hk _ g1.pos.1 g1.pos.2

theorem poss_cmp_any {m : M} {lo hi : Nat} {cs : List M} {inj : List K} {r rc : Rx} {ff : Bool} {G : Nat → Prop} (hg : GoodK cx P (m inj)) (hlh : lo ≤ hi)
    (hm : ∀ a, a < lo → Cmp cx P r ff (fun k => ∃ j, Iter (Den cx.query r) a k j) (m inj)) (hf : ff = false ∨ 0 < hi) (hdg : GoodK cx P (dfs cs []))
    (hT : Stays cx P (dfs cs [])) (hG : ∀ j, G j) :
    Cmp cx P (.seq (.rep r lo (boundOf hi)) rc) ff G (possessiveMatch m lo hi cs inj) := by
  intro st h ha j hd _
  obtain ⟨s1, e1, g1, a1⟩ := possLoop_any (lo := lo) hg hi 0 lo hm st h ha (by omega) hlh (by rcases hf with hf | hf; exact Or.inl (ha hf); exact Or.inr hf)
    (rep_split hd) st.pos h.pos.1 h.pos.2
  obtain ⟨s2, e2, _⟩ := hdg _ g1
  exact ⟨s2, by simp only [possessiveMatch, e1, e2], hT _ _ g1 a1 e2, hG _⟩

theorem group_cmp {m : M} {idx : Nat} {cs : List M} {inj : List K} {rm rc : Rx} {ff : Bool} {G : Nat → Prop} (hidx : idx < P.n)
    (hC : ∀ i a b, P.C i a b) (hg : GoodK cx P (m (cs.map (fun c => c []))))
    (hm : Cmp cx P rm ff (fun k => ∃ j, Den cx.query rc k j ∧ G j) (m (cs.map (fun c => c []))))
    (hd : Cmp cx P rc false G (dfs cs (cs.map (fun c => c []) ++ inj))) :
    Cmp cx P (.seq rm rc) ff G (groupMatch m idx cs inj) := by
  intro st h ha j ⟨k, h1, h2⟩ hG
  obtain ⟨s1, e1, a1, j', d1, gg⟩ := hm st h ha k h1 ⟨j, h2, hG⟩
  have g1 := hg.get h e1
  have hlt : idx < s1.groups.length := by rw [g1.len]; exact hidx
  have gs : Good cx P { s1 with groups := s1.groups.set idx (some (st.pos, s1.pos)) } := by
    refine ⟨g1.start, g1.lo, g1.pos, by simpa using g1.len, ?_, fun i a b _ => hC i a b⟩
    intro v hv
    rcases List.mem_or_eq_of_mem_set hv with hv | hv
    · exact g1.views v hv
    · subst hv
      intro a b hab
      simp only [Option.some.injEq, Prod.mk.injEq] at hab
      have := h.pos; have := g1.pos; have := h.lo
      omega
  obtain ⟨s2, e2, a2, g2⟩ := hd _ gs (fun _ => a1) j' (by simpa [off] using d1) gg
  exact ⟨s2, by simp only [groupMatch, e1]; rw [if_pos a1, if_pos hlt]; exact e2, a2, g2⟩
end

theorem stays_of_cmp {cx : Ctx} {P : Par} {r : Rx} {G : Nat → Prop} {k : K} (h : Cmp cx P r false G k) (hr : ∀ i, Den cx.query r i i) (hG : ∀ j, G j) :
    Stays cx P k := by
  intro st st' hg ha e
  obtain ⟨s, e1, a1, _⟩ := h st hg (fun _ => ha) _ (hr _) (hG _)
  rw [e] at e1; simp only [Option.some.injEq] at e1; subst e1; exact a1

/-! ## the tree -/

theorem dfsInj_own (cx : Ctx) (cs : List Node) : dfsInj ((runs cx cs).map (fun c => c [])) = dfs (runs cx cs) [] := by
  induction cs with
  | nil => rfl
  | cons c cs ih =>
    cases cs with
    | nil => funext st; simp [dfsInj, runs, dfs]
    | cons d ds =>
      funext st
      simp only [dfsInj, runs, List.map_cons, dfs] at ih ⊢
      rw [ih]

theorem safes_mem {nul : Bool} : ∀ {cs : List Node}, safes nul cs = true → ∀ c ∈ cs, safe nul c = true
  | [], _, c, hc => by simp at hc
  | d :: ds, h, c, hc => by
    simp only [safes, Bool.and_eq_true] at h
    rcases List.mem_cons.1 hc with rfl | hc
    · exact h.1
    · exact safes_mem h.2 c hc

theorem contOf_nil_of {cs : List Node} (h : cs.isEmpty = true) : contOf (toRxs cs) = .eps := by
  rw [List.isEmpty_iff.1 h]; rfl

/-- A step of a character class. -/
theorem stepSpec_cmp {cx : Ctx} {P : Par} {p : Int → Bool} {m : K} (hm : StepSpec cx p m) {r : Rx}
    (hr : ∀ q i j, Den q r i j ↔ (j = i + 1 ∧ ∃ c, q[i]? = some c ∧ p c = true)) {ff : Bool} {G : Nat → Prop} : Cmp cx P r ff G m := by
  intro st h _ j hd hG
  obtain ⟨rfl, c, hc, hp⟩ := (hr _ _ _).1 hd
  have e := hm.yes st (off st) h.nat.1 (inClass_one hc hp)
  exact ⟨_, e, rfl, hG⟩

theorem exactLoop_cmp {cx : Ctx} {b : Int} : ∀ (s : List Int) (st : St) (i : Nat), st.pos = i → st.accepted = true →
    (∀ k, k < s.length → cx.query[i + k]? = s[k]?) →
    exactLoop cx b s st = some { st with pos := ((i + s.length : Nat) : Int) }
  | [], st, i, hi, ha, _ => by
    simp only [exactLoop, List.length_nil, Nat.add_zero, ← hi]
  | c :: cs, st, i, hi, ha, hs => by
    have h0 := hs 0 (by simp)
    simp only [Nat.add_zero, List.getElem?_cons_zero] at h0
    have hlt : i < cx.query.length := by
      obtain ⟨h, _⟩ := List.getElem?_eq_some_iff.1 h0; exact h
    have hr : cx.read st.pos = some c := by
      rw [hi, read_query cx i (by omega) (by simp only [Ctx.qend]; omega)]; simpa using h0
    simp only [exactLoop, hr, ne_eq, not_true, if_false]
    rw [exactLoop_cmp cs { st with pos := st.pos + 1 } (i + 1) (by simp only [hi]; omega) ha ?_]
    · simp only [List.length_cons]
      have : ((i + 1 + cs.length : Nat) : Int) = ((i + (cs.length + 1) : Nat) : Int) := by omega
      rw [this]
    · intro k hk
      have := hs (k + 1) (by simp only [List.length_cons]; omega)
      rw [show i + (k + 1) = i + 1 + k from by omega] at this
      simpa using this

theorem exact_cmp {cx : Ctx} {P : Par} {s : List Int} (hne : s ≠ []) {ff : Bool} {G : Nat → Prop} :
    Cmp cx P (.lit s) ff G (guarded cx (exactMatch cx s)) := by
  intro st h _ j hd hG
  simp only [Den] at hd
  obtain ⟨rfl, hs⟩ := hd
  obtain ⟨hn, hl⟩ := h.nat
  have hlt : off st < cx.query.length := by
    cases s with
    | nil => exact absurd rfl hne
    | cons c s =>
      have h0 := hs 0 (by simp)
      simp only [Nat.add_zero, List.getElem?_cons_zero] at h0
      obtain ⟨h, _⟩ := List.getElem?_eq_some_iff.1 h0; exact h
  have e := exactLoop_cmp (cx := cx) (b := st.pos) s { st with accepted := true } (off st) hn rfl hs
  refine ⟨{ st with accepted := true, pos := ((off st + s.length : Nat) : Int) }, ?_, rfl, hG⟩
  rw [guarded, if_neg (by simp only [Ctx.qend]; omega)]
  exact e

theorem bos_cmp {cx : Ctx} {P : Par} (hne : 0 < cx.query.length) {ff : Bool} {G : Nat → Prop} : Cmp cx P .bos ff G (bosMatch cx) := by
  intro st h _ j hd hG
  simp only [Den] at hd
  obtain ⟨h0, rfl⟩ := hd
  obtain ⟨hn, hl⟩ := h.nat
  refine ⟨{ st with accepted := true }, ?_, rfl, ?_⟩
  · rw [bosMatch, if_neg (by simp only [Ctx.qend]; omega)]
    simp only [Option.some.injEq, St.mk.injEq, true_and, decide_eq_true_eq]
    omega
  · show G (off st); rw [h0]; exact hG

theorem eol_cmp {cx : Ctx} {P : Par} (hnul : cx.post.head? = some 0) {ff : Bool} {G : Nat → Prop} : Cmp cx P .eol ff G (eolMatch cx) := by
  intro st h _ j hd hG
  simp only [Den] at hd
  obtain ⟨hn, hl⟩ := h.nat
  have hle : ¬ st.pos > cx.qend := by simp only [Ctx.qend]; omega
  rcases hd with ⟨h0, rfl⟩ | ⟨hc, rfl⟩
  · have hq : st.pos = cx.qend := by simp only [Ctx.qend]; omega
    refine ⟨{ st with accepted := true }, ?_, rfl, hG⟩
    rw [eolMatch, if_neg hle]
    have hr : cx.read st.pos = some 0 := by rw [hq, read_end, hnul]
    simp only [hr]
    simp [hq]
  · have hlt : off st < cx.query.length := by
      obtain ⟨h, _⟩ := List.getElem?_eq_some_iff.1 hc; exact h
    have hr : cx.read st.pos = some 10 := by
      rw [hn, read_query cx _ (by omega) (by simp only [Ctx.qend]; omega)]; simpa using hc
    refine ⟨{ st with accepted := true, pos := st.pos + 1 }, ?_, rfl, ?_⟩
    · rw [eolMatch, if_neg hle]
      simp [hr]
    · have : off { st with accepted := true, pos := st.pos + 1 } = off st + 1 := by
        show (st.pos + 1).toNat = off st + 1; omega
      rw [this]; exact hG

/-- What is needed of the class when two sets are disjoint. -/
theorem class_disj {cx : Ctx} {m : Node} (ho : oneCh m = true) {cs : List Node} {f : Fol} {G : Nat → Prop}
    (hf : ∀ j, G j → f.holds cx.query j = true) (hdis : (Fol.cls (setOf m)).disj (firsts cs f) = true) :
    ∀ x j, InClass cx.query (testOf m) x 1 → Den cx.query (contOf (toRxs cs)) x j → ¬ G j := by
  intro x j hin hd hG
  obtain ⟨c, hc, hp⟩ := hin 0 (by omega)
  simp only [Nat.add_zero] at hc
  exact Fol.disj_spec hdis (Fol.holds_cls hc (by rw [mem_setOf]; exact hp)) (first_cont cs f x j hd (hf j hG))

mutual
/-- The completeness theorem of the engine. -/
theorem run_cm {cx : Ctx} {P : Par} {nul e : Bool} (hnul : nul = true → cx.post.head? = some 0) (hC : ∀ i a b, P.C i a b)
    (he : e = false → 0 < cx.query.length) (hlen : cx.query.length < umax) :
    ∀ (t : Node) (ff tv : Bool) (f : Fol) (ib dj : Bool) (G : Nat → Prop), safe nul t = true → cm e t ff tv f ib dj = true →
    (∀ i ∈ slots t, i < P.n) → ∀ inj, (∀ k ∈ inj, Inj cx P k) → (ib = false → inj = []) → (tv = true → ∀ j, G j) →
    (∀ j, G j → f.holds cx.query j = true) → (dj = true → Dec cx P inj true G) → Cmp cx P (toRx t) ff G (run cx t inj)
  | .exact s d, ff, tv, f, ib, dj, G, h, hc, _, inj, _, _, _, _, _ => by
    simp only [cm, Bool.not_eq_true', List.isEmpty_eq_false_iff] at hc
    simp only [run, toRx]; exact exact_cmp hc
  | .range a b d, ff, tv, f, ib, dj, G, h, hc, _, inj, _, _, _, _, _ =>
    stepSpec_cmp (stepSpec_run cx (.range a b d) rfl inj) (classOf_oneCh (m := .range a b d) rfl)
  | .word, ff, tv, f, ib, dj, G, h, hc, _, inj, _, _, _, _, _ =>
    stepSpec_cmp (stepSpec_run cx .word rfl inj) (classOf_oneCh (m := .word) rfl)
  | .any, ff, tv, f, ib, dj, G, h, hc, _, inj, _, _, _, _, _ =>
    stepSpec_cmp (stepSpec_run cx .any rfl inj) (classOf_oneCh (m := .any) rfl)
  | .space, ff, tv, f, ib, dj, G, h, hc, _, inj, _, _, _, _, _ =>
    stepSpec_cmp (stepSpec_run cx .space rfl inj) (classOf_oneCh (m := .space) rfl)
  | .negated m, ff, tv, f, ib, dj, G, h, hc, _, inj, _, _, _, _, _ => by
    simp only [safe] at h
    have ho : oneCh (.negated m) = true := by simp [oneCh, skipping, h]
    exact stepSpec_cmp (stepSpec_run cx _ ho inj) (classOf_oneCh ho)
  | .bos, ff, tv, f, ib, dj, G, h, hc, _, inj, _, _, _, _, _ => by
    simp only [cm, Bool.not_eq_true'] at hc
    simp only [run, toRx]; exact bos_cmp (he hc)
  | .eol, ff, tv, f, ib, dj, G, h, hc, _, inj, _, _, _, _, _ => by
    simp only [safe] at h
    simp only [run, toRx]; exact eol_cmp (hnul h)
  | .simple m cs, ff, tv, f, ib, dj, G, h, hc, hsl, inj, hinj, hib, htv, hf, hdj => by
    simp only [safe, Bool.and_eq_true] at h
    simp only [cm, Bool.and_eq_true] at hc
    simp only [slots, List.mem_append] at hsl
    simp only [run, toRx]
    have hg := run_good hnul hC m h.1 (fun i hi => hsl i (Or.inl hi)) [] (by simp)
    refine simple_cmp hg (run_cm hnul hC he hlen m ff (tv && nullables cs) (firsts cs f) false false _ h.1 hc.1 (fun i hi => hsl i (Or.inl hi)) []
      (by simp) (by simp) ?_ ?_ (by simp)) (runs_cm hnul hC he hlen cs false tv f ib dj G h.2 hc.2 (fun i hi => hsl i (Or.inr hi)) inj hinj hib htv hf hdj)
    · intro ht k
      simp only [Bool.and_eq_true] at ht
      exact ⟨k, nullables_den cx.query cs ht.2 k, htv ht.1 k⟩
    · rintro k ⟨j, hd, hG⟩
      exact first_cont cs f k j hd (hf j hG)
  | .alt cs, ff, tv, f, ib, dj, G, h, hc, hsl, inj, hinj, hib, htv, hf, hdj => by
    simp only [safe] at h
    simp only [cm] at hc
    simp only [slots] at hsl
    simp only [run, toRx]
    exact runs_cm hnul hC he hlen cs ff tv f ib dj G h hc hsl inj hinj hib htv hf hdj
  | .greedy m lo hi cs, ff, tv, f, ib, dj, G, h, hc, hsl, inj, hinj, hib, htv, hf, hdj => by
    have hgt := run_good hnul hC _ h hsl inj (fun k hk => (hinj k hk).1)
    simp only [safe, Bool.and_eq_true] at h
    simp only [slots, List.mem_append] at hsl
    simp only [cm, Bool.and_eq_true, decide_eq_true_eq] at hc
    obtain ⟨hlh, hc⟩ := hc
    have hgm := run_good hnul hC m h.1.1 (fun i hi => hsl i (Or.inl hi)) [] (by simp)
    have hgd : GoodK cx P (dfs (runs cx cs) []) :=
      dfs_good _ _ (runs_good hnul hC cs h.1.2 (fun i hi => hsl i (Or.inr hi))) (by simp)
    have hgb : GoodK cx P (greedyBacktrack (runs cx cs) inj) := backtrack_good hgd (fun k hk => (hinj k hk).1)
    have hbt : cs.isEmpty = false → greedyBacktrack (runs cx cs) inj = dfs (runs cx cs) [] := by
      intro hne; funext a; simp [greedyBacktrack, runs_isEmpty, hne]
    -- the backtracking function when there is no continuation
    have hnilc : ∀ ff', cs = [] → Dec cx P inj ff' G → Cmp cx P .eps ff' G (greedyBacktrack (runs cx cs) inj) ∧
        (∀ st st', Good cx P st → (ff' = false → st.accepted = true) → greedyBacktrack (runs cx cs) inj st = some st' → st'.accepted = true → G (off st')) := by
      intro ff' hcs hdec
      subst hcs
      refine ⟨?_, ?_⟩
      · intro st hg ha j hd hG
        simp only [Den] at hd; subst hd
        obtain ⟨s1, e1, hiff⟩ := hdec st hg ha
        exact ⟨{ s1 with pos := st.pos }, by simp only [greedyBacktrack, runs, List.isEmpty_nil, if_true, e1], hiff.2 hG, hG⟩
      · intro st st' hg ha e1 ha'
        obtain ⟨s1, e2, hiff⟩ := hdec st hg ha
        simp only [greedyBacktrack, runs, List.isEmpty_nil, if_true, e2, Option.some.injEq] at e1
        subst e1
        exact hiff.1 ha'
    cases ho : optPath m lo hi with
    | true =>
      obtain ⟨rfl, rfl, hsz⟩ := (optPath_iff _ _ _).1 ho
      rw [run_greedy_opt cx cs ho] at hgt ⊢
      rw [if_pos ho] at hc
      simp only [Bool.and_eq_true] at hc
      obtain ⟨hm, hc⟩ := hc
      have e1 : run cx m [] = charStep cx (testOf m) := funext (run_single cx m hm [])
      rw [e1, single_sizes.1 m hm] at hgt ⊢
      simp only [toRx]
      split at hc
      · rename_i hcs
        have hcs' := List.isEmpty_iff.1 hcs
        obtain ⟨hb1, hb2⟩ := hnilc true hcs' (hdj hc)
        rw [contOf_nil_of hcs]
        have hcl : Clean (greedyBacktrack (runs cx cs) inj) := backtrack_clean (by rw [hcs']; intro a b _ e _; simp only [runs, dfs, Option.some.injEq] at e; rw [e])
        exact optional_cmp (single_iter hm) hlen hgb hcl hb1 (Or.inl (fun st st' hg e ha => hb2 st st' hg (by simp) e ha))
      · rename_i hcs
        have hne : cs.isEmpty = false := by simpa using hcs
        simp only [Bool.and_eq_true, Bool.or_eq_true] at hc
        obtain ⟨⟨hcl, hor⟩, hcm⟩ := hc
        have hd := runs_cm hnul hC he hlen cs true tv f false false G h.1.2 hcm (fun i hi => hsl i (Or.inr hi)) [] (by simp) (by simp) htv hf (by simp)
        have hclr := clean_dfs _ [] (runs_clean cx cs hcl)
        refine optional_cmp (single_iter hm) hlen hgb (backtrack_clean hclr) (by rw [hbt hne]; exact hd) ?_
        rcases hor with ht | ht
        · exact Or.inl (fun _ _ _ _ _ => htv ht _)
        · exact Or.inr (class_disj (by simp [oneCh, hm]) hf ht)
    | false =>
      rw [run_greedy_loop cx cs ho] at hgt ⊢
      rw [if_neg (by simp [ho])] at hc
      simp only [toRx]
      split at hc
      · rename_i hm
        have e1 : run cx m [] = charStep cx (testOf m) := funext (run_single cx m hm [])
        rw [e1] at hgt ⊢
        split at hc
        · rename_i hcs
          have hcs' := List.isEmpty_iff.1 hcs
          simp only [Bool.or_eq_true, Bool.and_eq_true, Bool.not_eq_true'] at hc
          have hcl : Clean (greedyBacktrack (runs cx cs) inj) := backtrack_clean (by rw [hcs']; intro a b _ e _; simp only [runs, dfs, Option.some.injEq] at e; rw [e])
          have hde : Cmp cx P .eps false G (dfs (runs cx cs) []) := by
            rw [hcs']
            intro st _ ha j hd hG
            simp only [Den] at hd; subst hd
            exact ⟨st, rfl, ha rfl, hG⟩
          rcases hc with (ht | hj) | ⟨hib', hdis⟩
          · have := greedy_cmp_tv (P := P) (rc := contOf (toRxs cs)) (ff := ff) (inj := inj) (single_iter hm) hlen
              (rest_backtrack cx [] inj (fun k hk => (hinj k hk).2)) (by rw [hcs'] at hgt; exact hgt) hlh (htv ht)
            rw [hcs'] at this ⊢; exact this
          · obtain ⟨hb1, hb2⟩ := hnilc false hcs' (fun st hg _ => hdj hj st hg (by simp))
            rw [contOf_nil_of hcs]
            exact greedy_cmp (single_iter hm) hlen (rest_backtrack cx cs inj (fun k hk => (hinj k hk).2)) hcl (rest_dfs cx cs [] (by simp)) hgt hlh hb1 hde
              (Or.inl (fun st st' hg ha e ha' => hb2 st st' hg (fun _ => ha) e ha'))
          · rw [hib hib'] at hgt hcl ⊢
            rw [contOf_nil_of hcs]
            refine greedy_cmp (single_iter hm) hlen (rest_backtrack cx cs [] (by simp)) hcl (rest_dfs cx cs [] (by simp)) hgt hlh ?_ hde (Or.inr ?_)
            · rw [hcs']; simp only [runs, backtrack_nil]
              intro st _ ha j hd hG
              simp only [Den] at hd; subst hd
              exact ⟨st, rfl, ha rfl, hG⟩
            · have := class_disj (cx := cx) (m := m) (by simp [oneCh, hm]) (cs := []) hf (by simpa [firsts] using hdis)
              simpa [toRxs, contOf] using this
        · rename_i hcs
          have hne : cs.isEmpty = false := by simpa using hcs
          simp only [Bool.and_eq_true, Bool.or_eq_true] at hc
          obtain ⟨⟨hcl, hor⟩, hcm⟩ := hc
          have hd := runs_cm hnul hC he hlen cs false tv f false false G h.1.2 hcm (fun i hi => hsl i (Or.inr hi)) [] (by simp) (by simp) htv hf (by simp)
          have hclr := clean_dfs _ [] (runs_clean cx cs hcl)
          refine greedy_cmp (single_iter hm) hlen (rest_backtrack cx cs inj (fun k hk => (hinj k hk).2)) (backtrack_clean hclr)
            (rest_dfs cx cs [] (by simp)) hgt hlh (by rw [hbt hne]; exact hd) hd ?_
          rcases hor with ht | ht
          · exact Or.inl (fun _ _ _ _ _ _ => htv ht _)
          · exact Or.inr (class_disj (by simp [oneCh, hm]) hf ht)
      · simp only [Bool.and_eq_true, Bool.or_eq_true, decide_eq_true_eq] at hc
        obtain ⟨⟨ht, hst⟩, hor⟩ := hc
        have hT : Stays cx P (dfs (runs cx cs) []) := by
          rcases hst with hst | ⟨hn, hcm⟩
          · exact fun st st' _ ha e => runs_total cx cs false hst [] (fun _ => rfl) st st' e ha
          · exact stays_of_cmp (runs_cm hnul hC he hlen cs false tv f false false G h.1.2 hcm (fun i hi => hsl i (Or.inr hi)) [] (by simp) (by simp) htv hf (by simp))
              (nullables_den cx.query cs hn) (htv ht)
        have hmc : ∀ a, a < lo → Cmp cx P (toRx m) ff (fun k => ∃ j, Iter (Den cx.query (toRx m)) a k j) (run cx m []) := by
          intro a ha
          rcases hor with (h0 | hh) | ⟨h1, hh⟩
          · omega
          · exact run_cm hnul hC he hlen m ff false .univ false false _ h.1.1 hh (fun i hi => hsl i (Or.inl hi)) [] (by simp) (by simp) (by simp)
              (fun _ _ => Fol.holds_univ _ _) (by simp)
          · have ha0 : a = 0 := by omega
            subst ha0
            exact run_cm hnul hC he hlen m ff true .univ false false _ h.1.1 hh (fun i hi => hsl i (Or.inl hi)) [] (by simp) (by simp)
              (fun _ k => ⟨k, rfl⟩) (fun _ _ => Fol.holds_univ _ _) (by simp)
        exact greedy_cmp_any (hi := hi) (rc := contOf (toRxs cs)) hgm hgd hT (fun k hk => (hinj k hk).1) hmc (htv ht)
  | .lazy m lo hi cs, ff, tv, f, ib, dj, G, h, hc, hsl, inj, hinj, hib, htv, hf, hdj => by
    have hgt := run_good hnul hC _ h hsl inj (fun k hk => (hinj k hk).1)
    simp only [safe, Bool.and_eq_true] at h
    simp only [slots, List.mem_append] at hsl
    simp only [cm, Bool.and_eq_true, decide_eq_true_eq] at hc
    obtain ⟨hlh, hc⟩ := hc
    rw [Bool.or_eq_true] at hc
    rcases hc with hc | hc
    case inr =>
      simp only [Bool.and_eq_true, Bool.or_eq_true, decide_eq_true_eq, Bool.not_eq_true'] at hc
      obtain ⟨⟨⟨⟨ht, hne⟩, hst⟩, hfl⟩, hor⟩ := hc
      have hgm := run_good hnul hC m h.1 (fun i hi => hsl i (Or.inl hi)) [] (by simp)
      have hgd : GoodK cx P (dfs (runs cx cs) []) :=
        dfs_good _ _ (runs_good hnul hC cs h.2 (fun i hi => hsl i (Or.inr hi))) (by simp)
      have hT : Stays cx P (dfs (runs cx cs) []) := by
        rcases hst with hst | ⟨hn, hcm⟩
        · exact fun st st' _ ha e => runs_total cx cs false hst [] (fun _ => rfl) st st' e ha
        · exact stays_of_cmp (runs_cm hnul hC he hlen cs false tv f false false G h.2 hcm (fun i hi => hsl i (Or.inr hi)) [] (by simp) (by simp) htv hf (by simp))
            (nullables_den cx.query cs hn) (htv ht)
      have hmc : ∀ a, a < lo → Cmp cx P (toRx m) ff (fun k => ∃ j, Iter (Den cx.query (toRx m)) a k j) (run cx m []) := by
        intro a ha
        rcases hor with (h0 | hh) | ⟨h1, hh⟩
        · omega
        · exact run_cm hnul hC he hlen m ff false .univ false false _ h.1 hh (fun i hi => hsl i (Or.inl hi)) [] (by simp) (by simp) (by simp)
            (fun _ _ => Fol.holds_univ _ _) (by simp)
        · have ha0 : a = 0 := by omega
          subst ha0
          exact run_cm hnul hC he hlen m ff true .univ false false _ h.1 hh (fun i hi => hsl i (Or.inl hi)) [] (by simp) (by simp)
            (fun _ k => ⟨k, rfl⟩) (fun _ _ => Fol.holds_univ _ _) (by simp)
      simp only [run, toRx]
      refine lazy_cmp_any hgm hgd hT (fun hcs => ?_) hfl.symm hmc (htv ht)
      rw [runs_isEmpty] at hcs
      rcases hne with hne | hne
      · simp [hcs] at hne
      · exact hib hne
    rw [Bool.and_eq_true] at hc
    obtain ⟨hm, hc⟩ := hc
    have hgm := run_good hnul hC m h.1 (fun i hi => hsl i (Or.inl hi)) [] (by simp)
    have hstep := stepSpec_run cx m hm []
    have hiter : ∀ q i j n, Iter (Den q (toRx m)) n i j ↔ (j = i + n ∧ InClass q (testOf m) i n) :=
      fun q i j n => iter_class (classOf_oneCh hm) q n i j
    simp only [run, toRx] at hgt ⊢
    split at hc
    · rename_i hcs
      have hcs' := List.isEmpty_iff.1 hcs
      simp only [Bool.and_eq_true, Bool.or_eq_true, Bool.not_eq_true', decide_eq_true_eq] at hc
      obtain ⟨hor, hfl⟩ := hc
      have hdec : Dec cx P inj false G := by
        rcases hor with hj | ⟨ht, hib'⟩
        · exact fun st hg _ => hdj hj st hg (by simp)
        · rw [hib hib']
          intro st _ ha
          exact ⟨st, rfl, ⟨fun _ => htv ht _, fun _ => ha rfl⟩⟩
      rw [contOf_nil_of hcs]
      have := lazy_cmp_dec (lo := lo) (hi := hi) hstep hgm hiter hlen (dfsInj_good (fun k hk => (hinj k hk).1)) hdec
        (ff := ff) (by rcases hfl with h | h; exact Or.inr (by omega); exact Or.inl h)
      rw [hcs']; exact this
    · rename_i hcs
      have hne : cs.isEmpty = false := by simpa using hcs
      simp only [Bool.and_eq_true, Bool.or_eq_true, Bool.not_eq_true', decide_eq_true_eq] at hc
      obtain ⟨⟨⟨ht, hcl⟩, hfl⟩, hcm⟩ := hc
      have hd := runs_cm hnul hC he hlen cs false tv f false false G h.2 hcm (fun i hi => hsl i (Or.inr hi)) [] (by simp) (by simp) htv hf (by simp)
      refine lazy_cmp hstep hiter hlen (by rw [runs_isEmpty]; exact hne) (rest_dfs cx cs [] (by simp)) (clean_dfs _ [] (runs_clean cx cs hcl)) hlh hgt ?_ hd (htv ht)
      rcases hfl with (h | h) | h
      · exact Or.inr (Or.inl (by omega))
      · exact Or.inl h
      · exact Or.inr (Or.inr (runs_flagFree cx cs h []))
  | .possessive m lo hi cs, ff, tv, f, ib, dj, G, h, hc, hsl, inj, hinj, hib, htv, hf, hdj => by
    simp only [safe, Bool.and_eq_true] at h
    simp only [slots, List.mem_append] at hsl
    simp only [cm, Bool.and_eq_true, decide_eq_true_eq, Bool.or_eq_true] at hc
    obtain ⟨hlh, hc⟩ := hc
    have hgm := run_good hnul hC m h.1 (fun i hi => hsl i (Or.inl hi)) inj (fun k hk => (hinj k hk).1)
    simp only [run, toRx]
    rcases hc with ⟨⟨⟨ht, hst⟩, hfl⟩, hor⟩ | ⟨⟨⟨⟨⟨⟨hh, hs⟩, hno⟩, hmin⟩, hhi⟩, hdis⟩, hcm⟩
    · have hgd : GoodK cx P (dfs (runs cx cs) []) :=
        dfs_good _ _ (runs_good hnul hC cs h.2 (fun i hi => hsl i (Or.inr hi))) (by simp)
      have hT : Stays cx P (dfs (runs cx cs) []) := by
        rcases hst with hst | ⟨hn, hcm⟩
        · exact fun st st' _ ha e => runs_total cx cs false hst [] (fun _ => rfl) st st' e ha
        · exact stays_of_cmp (runs_cm hnul hC he hlen cs false tv f false false G h.2 hcm (fun i hi => hsl i (Or.inr hi)) [] (by simp) (by simp) htv hf (by simp))
            (nullables_den cx.query cs hn) (htv ht)
      have hmc : ∀ a, a < lo → Cmp cx P (toRx m) ff (fun k => ∃ j, Iter (Den cx.query (toRx m)) a k j) (run cx m inj) := by
        intro a ha
        rcases hor with (h0 | hh) | ⟨h1, hh⟩
        · omega
        · exact run_cm hnul hC he hlen m ff false .univ ib false _ h.1 hh (fun i hi => hsl i (Or.inl hi)) inj hinj hib (by simp)
            (fun _ _ => Fol.holds_univ _ _) (by simp)
        · have ha0 : a = 0 := by omega
          subst ha0
          exact run_cm hnul hC he hlen m ff true .univ ib false _ h.1 hh (fun i hi => hsl i (Or.inl hi)) inj hinj hib
            (fun _ k => ⟨k, rfl⟩) (fun _ _ => Fol.holds_univ _ _) (by simp)
      exact poss_cmp_any (rc := contOf (toRxs cs)) (ff := ff) hgm hlh hmc
        (by rcases hfl with h | h; exact Or.inr (by omega); exact Or.inl (by simpa using h)) hgd hT (htv ht)
    · have hd := runs_cm hnul hC he hlen cs false tv f false false G h.2 hcm (fun i hi => hsl i (Or.inr hi)) [] (by simp) (by simp) htv hf (by simp)
      have hsnd := (run_snd hnul m ib false h.1 hs (fun i hi => hsl i (Or.inl hi)) (fun _ _ _ _ _ _ _ => hC _ _ _) inj hinj hib).2
      refine poss_cmp hgm (fun G' => run_cm hnul hC he hlen m ff false .univ ib false G' h.1 hh (fun i hi => hsl i (Or.inl hi)) inj hinj hib (by simp)
        (fun _ _ => Fol.holds_univ _ _) (by simp)) hsnd hlen ?_ hhi ?_ hd
      · intro i j hden
        have := min_den cx.query m hno i j hden
        omega
      · intro x k j h1 h2 hG
        exact Fol.disj_spec hdis (first_holds m .univ x k h1 (Fol.holds_univ _ _)) (first_cont cs f x j h2 (hf j hG))
  | .repeated m n cs, ff, tv, f, ib, dj, G, h, hc, hsl, inj, hinj, hib, htv, hf, hdj => by
    simp only [safe, Bool.and_eq_true] at h
    simp only [slots, List.mem_append] at hsl
    simp only [cm] at hc
    have hgm := run_good hnul hC m h.1 (fun i hi => hsl i (Or.inl hi)) [] (by simp)
    simp only [run, toRx]
    split at hc
    · rename_i hn
      refine repeated_cmp hgm (Or.inl hn) ?_
      have := runs_cm hnul hC he hlen cs ff tv f false false G h.2 hc (fun i hi => hsl i (Or.inr hi)) [] (by simp) (by simp) htv hf (by simp)
      simpa [hn] using this
    · rename_i hn
      split at hc
      · rename_i h1
        subst h1
        simp only [Bool.and_eq_true] at hc
        refine repeated_one_cmp hgm (run_cm hnul hC he hlen m ff (tv && nullables cs) (firsts cs f) false false _ h.1 hc.1 (fun i hi => hsl i (Or.inl hi)) []
          (by simp) (by simp) ?_ ?_ (by simp)) (runs_cm hnul hC he hlen cs false tv f false false G h.2 hc.2 (fun i hi => hsl i (Or.inr hi)) [] (by simp) (by simp) htv hf (by simp))
        · intro ht k
          simp only [Bool.and_eq_true] at ht
          exact ⟨k, nullables_den cx.query cs ht.2 k, htv ht.1 k⟩
        · rintro k ⟨j, hd, hG⟩
          exact first_cont cs f k j hd (hf j hG)
      simp only [Bool.and_eq_true] at hc
      refine repeated_cmp hgm (Or.inr (fun G' => run_cm hnul hC he hlen m ff false .univ false false G' h.1 hc.1 (fun i hi => hsl i (Or.inl hi)) [] (by simp) (by simp)
        (by simp) (fun _ _ => Fol.holds_univ _ _) (by simp))) ?_
      have := runs_cm hnul hC he hlen cs false tv f false false G h.2 hc.2 (fun i hi => hsl i (Or.inr hi)) [] (by simp) (by simp) htv hf (by simp)
      simpa [hn] using this
  | .group m idx cs, ff, tv, f, ib, dj, G, h, hc, hsl, inj, hinj, hib, htv, hf, hdj => by
    simp only [safe, Bool.and_eq_true] at h
    simp only [slots, List.mem_cons, List.mem_append] at hsl
    simp only [cm, Bool.and_eq_true] at hc
    obtain ⟨hcm, hcc⟩ := hc
    have hslc : ∀ i ∈ slotss cs, i < P.n := fun i hi => hsl i (Or.inr (Or.inr hi))
    have hown : ∀ k ∈ (runs cx cs).map (fun c => c []), Inj cx P k := by
      intro k hk
      rw [runs_eq_map, List.map_map, List.mem_map] at hk
      obtain ⟨c, hcc', rfl⟩ := hk
      refine ⟨?_, rest_run cx c [] (by simp)⟩
      exact runs_good hnul hC cs h.2 hslc (run cx c) (by rw [runs_eq_map]; exact List.mem_map.2 ⟨c, hcc', rfl⟩) [] (by simp)
    have hall : ∀ k ∈ (runs cx cs).map (fun c => c []) ++ inj, Inj cx P k := by
      intro k hk
      rcases List.mem_append.1 hk with hk | hk
      · exact hown k hk
      · exact hinj k hk
    have hgm := run_good hnul hC m h.1 (fun i hi => hsl i (Or.inr (Or.inl hi))) _ (fun k hk => (hown k hk).1)
    simp only [run, toRx]
    refine group_cmp (hsl idx (Or.inl rfl)) hC hgm (run_cm hnul hC he hlen m ff (tv && nullables cs) (firsts cs f) (!cs.isEmpty) _ _ h.1 hcm
      (fun i hi => hsl i (Or.inr (Or.inl hi))) _ hown ?_ ?_ ?_ ?_)
      (runs_cm hnul hC he hlen cs false tv f (ib || !cs.isEmpty) false G h.2 hcc hslc _ hall ?_ htv hf (by simp))
    · intro hb; simp only [Bool.not_eq_false', List.isEmpty_iff] at hb; subst hb; simp [runs]
    · intro ht k
      simp only [Bool.and_eq_true] at ht
      exact ⟨k, nullables_den cx.query cs ht.2 k, htv ht.1 k⟩
    · rintro k ⟨j, hd, hG⟩
      exact first_cont cs f k j hd (hf j hG)
    · intro hj
      simp only [Bool.and_eq_true] at hj
      obtain ⟨⟨⟨⟨ht, hne⟩, hs⟩, hcl⟩, hcd⟩ := hj
      intro st hg ha
      rw [dfsInj_own]
      obtain ⟨g2, s2⟩ := dfs_snd (z := false) cs [] (fun c hc inj' hi' => runs_snd hnul cs false false h.2 hs hslc
        (fun _ _ _ _ _ _ _ => hC _ _ _) c hc inj' (by rcases hi' with rfl | rfl <;> simp) (fun _ => by rcases hi' with h | h <;> exact h)) hcl
      have hcp := runs_cm hnul hC he hlen cs true true .univ false false (fun _ => True) h.2 hcd hslc [] (by simp) (by simp) (by simp)
        (fun _ _ => Fol.holds_univ _ _) (by simp)
      obtain ⟨s1, e1, _⟩ := g2 st hg
      refine ⟨s1, e1, fun ha1 => ⟨off s1, s2 st s1 hg (by simp) e1 ha1, htv ht _⟩, ?_⟩
      rintro ⟨j, hd, _⟩
      obtain ⟨s3, e3, a3, _⟩ := hcp st hg (by simp) j hd trivial
      rw [e1] at e3; simp only [Option.some.injEq] at e3; subst e3; exact a3
    · intro hb
      simp only [Bool.or_eq_false_iff, Bool.not_eq_false', List.isEmpty_iff] at hb
      rw [hib hb.1, hb.2]; simp [runs]
theorem runs_cm {cx : Ctx} {P : Par} {nul e : Bool} (hnul : nul = true → cx.post.head? = some 0) (hC : ∀ i a b, P.C i a b)
    (he : e = false → 0 < cx.query.length) (hlen : cx.query.length < umax) :
    ∀ (cs : List Node) (ff tv : Bool) (f : Fol) (ib dj : Bool) (G : Nat → Prop), safes nul cs = true → cms e cs ff tv f ib dj = true →
    (∀ i ∈ slotss cs, i < P.n) → ∀ inj, (∀ k ∈ inj, Inj cx P k) → (ib = false → inj = []) → (tv = true → ∀ j, G j) →
    (∀ j, G j → f.holds cx.query j = true) → (dj = true → Dec cx P inj true G) →
    Cmp cx P (contOf (toRxs cs)) ff G (dfs (runs cx cs) inj)
  | [], ff, tv, f, ib, dj, G, h, hc, hsl, inj, hinj, hib, htv, hf, hdj => by
    simp only [cms, Bool.not_eq_true'] at hc
    intro st _ ha j hd hG
    rw [den_cont_nil] at hd; subst hd
    exact ⟨st, rfl, ha hc, hG⟩
  | [c], ff, tv, f, ib, dj, G, h, hc, hsl, inj, hinj, hib, htv, hf, hdj => by
    simp only [cms] at hc
    simp only [safes, Bool.and_eq_true] at h
    simp only [slotss, List.append_nil] at hsl
    have := run_cm hnul hC he hlen c ff tv f ib dj G h.1 hc hsl inj hinj hib htv hf hdj
    simp only [runs, toRxs, contOf, altOf]
    intro st hg ha j hd hG
    obtain ⟨s, e1, r⟩ := this st hg ha j hd hG
    exact ⟨s, by simp only [dfs, e1], r⟩
  | c :: d :: ds, ff, tv, f, ib, dj, G, h, hc, hsl, inj, hinj, hib, htv, hf, hdj => by
    simp only [cms, Bool.and_eq_true, Bool.or_eq_true] at hc
    obtain ⟨⟨⟨hc1, hcl⟩, hor⟩, hc2⟩ := hc
    rw [safes, Bool.and_eq_true] at h
    rw [slotss] at hsl
    simp only [List.mem_append] at hsl
    have hcc := run_cm hnul hC he hlen c ff tv f ib dj G h.1 hc1 (fun i hi => hsl i (Or.inl hi)) inj hinj hib htv hf hdj
    have hrest := runs_cm hnul hC he hlen (d :: ds) false tv f false false G h.2 hc2 (fun i hi => hsl i (Or.inr hi)) [] (by simp) (by simp) htv hf (by simp)
    have hgc := run_good hnul hC c h.1 (fun i hi => hsl i (Or.inl hi)) inj (fun k hk => (hinj k hk).1)
    intro st hg ha j hd hG
    obtain ⟨s1, e1, g1⟩ := hgc st hg
    simp only [runs, dfs, e1]
    rw [den_cont _ (by simp)] at hd
    obtain ⟨x, hx, hdx⟩ := hd
    have hlater : x ∈ d :: ds → Den cx.query (contOf (toRxs (d :: ds))) (off st) j := fun hx' => by
      rw [den_cont _ (by simp)]; exact ⟨x, hx', hdx⟩
    have hearly : x = c → s1.accepted = true ∧ G (off s1) := by
      intro hxc
      rw [hxc] at hdx
      obtain ⟨s2, e2, r⟩ := hcc st hg ha j hdx hG
      rw [e1] at e2; simp only [Option.some.injEq] at e2; subst e2; exact r
    by_cases ha1 : s1.accepted = true
    · rw [if_pos ha1]
      refine ⟨s1, rfl, ha1, ?_⟩
      rcases List.mem_cons.1 hx with hxc | hx'
      · exact (hearly hxc).2
      · rcases hor with ht | ⟨hs, hap⟩
        · exact htv ht _
        · have hsnd := (run_snd hnul c ib false h.1 hs (fun i hi => hsl i (Or.inl hi)) (fun _ _ _ _ _ _ _ => hC _ _ _) inj hinj hib).2
          have hd1 := hsnd st s1 hg (by simp) e1 ha1
          have := List.all_eq_true.1 hap x hx'
          simp only [Bool.or_eq_true, Bool.and_eq_true, beq_iff_eq] at this
          rcases this with hdis | ⟨hw1, hw2⟩
          · exact (Fol.disj_spec hdis (first_holds c .univ _ _ hd1 (Fol.holds_univ _ _)) (first_holds x f _ _ hdx (hf j hG))).elim
          · obtain ⟨w, hw⟩ := Option.isSome_iff_exists.1 hw1
            have h1 := width_den c w hw _ _ hd1
            have h2 := width_den x w (by rw [← hw2]; exact hw) _ _ hdx
            rw [h1, ← h2]; exact hG
    · rw [if_neg ha1]
      have hp := run_clean cx c hcl inj st s1 (by have := hg.nat; omega) e1 (by simpa using ha1)
      have hx' : x ∈ d :: ds := by
        rcases List.mem_cons.1 hx with hxc | hx'
        · exact absurd (hearly hxc).1 ha1
        · exact hx'
      have hoff : off { s1 with accepted := true } = off st := by simp [off, hp]
      obtain ⟨s2, e2, r⟩ := hrest { s1 with accepted := true } (g1.flag true) (by simp) j (by rw [hoff]; exact hlater hx') hG
      exact ⟨s2, by simpa [runs] using e2, r⟩
end

end ERegex

import Verif.Proofs.Clean
import Verif.Proofs.Denote
import Verif.Proofs.Search
/-!
# Accepted matches belong to the language of the tree

`snd ib z t` is a decidable condition on trees (`ib` : functions may be injected, `z` : the node is entered where the attempt
began).  For safe trees that satisfy it, every accepted run from offset `i` to offset `j` is in the denotation of the tree, and
every capture that is written is in the denotation of its group.
-/
set_option autoImplicit false
namespace ERegex
open Spec

/-- Offset of the position. -/
def off (st : St) : Nat := st.pos.toNat

/-- The start anchor. -/
def isBos : Node → Bool
  | .bos => true
  | _ => false

/-- Greedy loops that count right. -/
def greedyOk (ib z : Bool) (m : Node) (lo hi : Nat) (cs : List Node) : Bool :=
  if optPath m lo hi then (z && single m && cleans cs) || (cs.isEmpty && !ib)
  else decide (lo ≤ hi) && ((single m && cleans cs) || (cs.isEmpty && !ib && clean m) || (!cs.isEmpty && totals false cs && clean m) || decide (lo = hi))

mutual
/-- Trees whose accepted runs belong to their language. -/
def snd (ib z : Bool) : Node → Bool
  | .exact .. | .range .. | .word | .any | .bos | .eol | .space | .negated _ => true
  | .simple m cs => snd false z m && snds ib (z && isBos m) cs && cleans cs.dropLast
  | .alt cs => snds ib z cs && cleans cs.dropLast
  | .greedy m lo hi cs => snd false false m && snds false false cs && cleans cs.dropLast && greedyOk ib z m lo hi cs
  | .lazy m lo hi cs => snd false false m && snds false false cs && cleans cs && decide (lo ≤ hi)
  | .possessive m lo hi cs => snd ib false m && snds false false cs && cleans cs.dropLast && decide (lo ≤ hi)
  | .repeated m _ cs => snd false false m && snds false false cs && cleans cs.dropLast
  | .group m _ cs => snd (!cs.isEmpty) false m && snds true false cs && cleans cs.dropLast
/-- All of a list. -/
def snds (ib z : Bool) : List Node → Bool
  | [] => true
  | c :: cs => snd ib z c && snds ib z cs
end

mutual
/-- The capturing groups of a tree: slot and content. -/
def capsOf : Node → List (Nat × Node)
  | .exact .. | .range .. | .word | .any | .bos | .eol | .space => []
  | .negated _ => []
  | .alt cs => capsOfs cs
  | .simple m cs | .greedy m _ _ cs | .lazy m _ _ cs | .possessive m _ _ cs | .repeated m _ cs => capsOf m ++ capsOfs cs
  | .group m idx cs => (idx, m) :: (capsOf m ++ capsOfs cs)
/-- All of a list. -/
def capsOfs : List Node → List (Nat × Node)
  | [] => []
  | c :: cs => capsOf c ++ capsOfs cs
end

/-- Accepted runs are in the denotation of `r`. -/
def Snd (cx : Ctx) (P : Par) (r : Rx) (z : Bool) (k : K) : Prop :=
  ∀ st st', Good cx P st → (z = true → st.start = st.pos) → k st = some st' → st'.accepted = true →
    Den cx.query r (off st) (off st')

theorem GoodK.get {cx : Ctx} {P : Par} {k : K} (h : GoodK cx P k) {st st' : St} (hg : Good cx P st) (e : k st = some st') :
    Good cx P st' := by
  obtain ⟨s, e1, h1⟩ := h st hg
  rw [e] at e1; simp only [Option.some.injEq] at e1; subst e1; exact h1

theorem Good.nat {cx : Ctx} {P : Par} {st : St} (h : Good cx P st) : st.pos = (off st : Int) ∧ off st ≤ cx.query.length := by
  have := h.lo; have h2 := h.pos
  have : 0 ≤ st.pos := by omega
  unfold off
  refine ⟨by omega, ?_⟩
  have := h2.2
  simp only [Ctx.qend] at this
  omega

/-! ## iteration of a relation -/

theorem iter_add {α : Type} {R : α → α → Prop} : ∀ {m n : Nat} {i j k : α}, Iter R m i j → Iter R n j k → Iter R (m + n) i k := by
  intro m
  induction m with
  | zero => intro n i j k h1 h2; simp only [Iter] at h1; subst h1; simpa using h2
  | succ m ih =>
    intro n i j k h1 h2
    obtain ⟨x, h3, h4⟩ := h1
    rw [Nat.add_right_comm]
    exact ⟨x, h3, ih h4 h2⟩

theorem iter_one {α : Type} {R : α → α → Prop} {i j : α} (h : R i j) : Iter R 1 i j := ⟨j, h, rfl⟩

section
variable {cx : Ctx} {P : Par}

theorem den_rep {q : List Int} {r : Rx} {lo hi n i j : Nat} (h1 : lo ≤ n) (h2 : n ≤ hi) (h : Iter (Den q r) n i j) :
    Den q (.rep r lo (boundOf hi)) i j := by
  refine ⟨n, h1, ?_, h⟩
  intro b hb
  unfold boundOf at hb
  split at hb
  · simp at hb
  · simp only [Option.some.injEq] at hb; omega

/-! ## terminals -/

theorem charStep_snd {p : Int → Bool} {r : Rx} (hr : ∀ q i j, Den q r i j ↔ (j = i + 1 ∧ ∃ c, q[i]? = some c ∧ p c = true)) (z : Bool) :
    Snd cx P r z (charStep cx p) := by
  intro st st' h _ e ha
  by_cases hp : cx.qend ≤ st.pos
  · rw [charStep_end hp] at e; simp only [Option.some.injEq] at e; subst e; simp at ha
  · have h' : st.pos < cx.qend := by omega
    have h0 : 0 ≤ st.pos := by have := h.lo; have := h.pos; omega
    obtain ⟨c, hc, hq⟩ := read_some cx st.pos h0 h'
    rw [charStep_read h' hc] at e
    split at e
    · rename_i hpc
      simp only [Option.some.injEq] at e; subst e
      rw [hr]
      refine ⟨by simp only [off]; omega, c, hq, hpc⟩
    · simp only [Option.some.injEq] at e; subst e; simp at ha

theorem skipStep_snd {p : Int → Bool} {r : Rx} (hr : ∀ q i j, Den q r i j ↔ (j = i + 1 ∧ ∃ c, q[i]? = some c ∧ p c = true)) (z : Bool) :
    Snd cx P r z (skipStep cx p) := by
  intro st st' h _ e ha
  simp only [skipStep] at e
  split at e
  · simp only [Option.some.injEq] at e; subst e; simp at ha
  · rename_i hp
    have h0 : 0 ≤ st.pos := by have := h.lo; have := h.pos; omega
    obtain ⟨c, hc, hq⟩ := read_some cx st.pos h0 (by omega)
    rw [hc] at e
    simp only [Option.some.injEq] at e; subst e
    rw [hr]
    exact ⟨by simp only [off]; omega, c, hq, ha⟩

theorem exactLoop_snd {b : Int} : ∀ (s : List Int) (st st' : St) (i : Nat), st.pos = i → i ≤ cx.query.length →
    (cx.post.head? = some 0 ∧ (0 : Int) ∉ s) → st.accepted = true →
    exactLoop cx b s st = some st' → st'.accepted = true →
    st'.pos = (i + s.length : Nat) ∧ ∀ k, k < s.length → cx.query[i + k]? = s[k]? := by
  intro s
  induction s with
  | nil =>
    intro st st' i hi _ _ _ e _
    simp only [exactLoop, Option.some.injEq] at e; subst e
    exact ⟨by simpa using hi, by simp⟩
  | cons c s ih =>
    intro st st' i hi hl hz ha e ha'
    simp only [List.mem_cons, not_or] at hz
    simp only [exactLoop] at e
    by_cases hp : i = cx.query.length
    · have : st.pos = cx.qend := by rw [hi, hp]; rfl
      rw [this, read_end, hz.1] at e
      have : c ≠ 0 := fun h => hz.2.1 h.symm
      simp only [this, ne_eq, not_false_eq_true, if_true, Option.some.injEq] at e
      subst e; simp at ha'
    · obtain ⟨d, hd, hq⟩ := read_some cx st.pos (by omega) (by rw [hi]; simp only [Ctx.qend]; omega)
      rw [hd] at e
      simp only at e
      split at e
      · simp only [Option.some.injEq] at e; subst e; simp at ha'
      · rename_i hcd
        have hcd : c = d := by simpa using hcd
        obtain ⟨h1, h2⟩ := ih { st with pos := st.pos + 1 } st' (i + 1) (by simp [hi]) (by omega) ⟨hz.1, hz.2.2⟩ ha e ha'
        refine ⟨by rw [h1]; simp; omega, fun k hk => ?_⟩
        cases k with
        | zero =>
          have : st.pos.toNat = i := by omega
          rw [this] at hq
          simp [hq, hcd]
        | succ k =>
          have := h2 k (by simpa using hk)
          rw [show i + (k + 1) = i + 1 + k by omega, this]
          simp

theorem exact_snd {s : List Int} (hs : s.length ≤ 1 ∨ (cx.post.head? = some 0 ∧ (0 : Int) ∉ s)) (z : Bool) :
    Snd cx P (.lit s) z (guarded cx (exactMatch cx s)) := by
  intro st st' h _ e ha
  obtain ⟨hn, hl⟩ := h.nat
  rcases hs with hs | hs
  · match s, hs with
    | [], _ =>
      simp only [guarded] at e
      split at e
      · simp only [Option.some.injEq] at e; subst e; simp at ha
      · simp only [exactMatch, exactLoop, Option.some.injEq] at e; subst e
        simp [Den, off]
    | [x], _ =>
      rw [exact_single] at e
      refine charStep_snd (r := .lit [x]) (p := fun c => [x] == [c]) ?_ z st st' h (by assumption) e ha
      intro q i j
      simp only [Den, List.length_singleton]
      refine and_congr_right fun _ => ?_
      constructor
      · intro h; have := h 0 (by omega); simp at this; exact ⟨x, this, by simp⟩
      · rintro ⟨c, h1, h2⟩ k hk
        have : k = 0 := by omega
        subst this
        simp at h2 ⊢
        rw [h1, h2]
  · simp only [guarded] at e
    split at e
    · simp only [Option.some.injEq] at e; subst e; simp at ha
    · simp only [exactMatch] at e
      obtain ⟨h1, h2⟩ := exactLoop_snd s { st with accepted := true } st' (off st) hn hl hs rfl e ha
      refine ⟨?_, h2⟩
      simp only [off] at h1 ⊢; omega

theorem bos_snd (z : Bool) : Snd cx P .bos z (bosMatch cx) := by
  intro st st' h _ e ha
  simp only [bosMatch] at e
  split at e
  · simp only [Option.some.injEq] at e; subst e; simp at ha
  · simp only [Option.some.injEq] at e; subst e
    simp only [decide_eq_true_eq] at ha
    simp [Den, off, ha]

theorem eol_snd (hnul : cx.post.head? = some 0) (z : Bool) : Snd cx P .eol z (eolMatch cx) := by
  intro st st' h _ e ha
  obtain ⟨hn, hl⟩ := h.nat
  simp only [eolMatch] at e
  split at e
  · simp only [Option.some.injEq] at e; subst e; simp at ha
  · by_cases hp : st.pos = cx.qend
    · rw [hp, read_end, hnul] at e
      simp only [show ((0 : Int) = 10) = False from by simp, if_false, Option.some.injEq] at e
      subst e
      left
      have : st.pos = cx.query.length := hp
      exact ⟨by omega, by simp [off, hp]⟩
    · obtain ⟨d, hd, hq⟩ := read_some cx st.pos (by omega) (by have := h.pos; omega)
      rw [hd] at e
      simp only at e
      split at e
      · rename_i h10
        simp only [Option.some.injEq] at e; subst e
        right
        rw [h10] at hq
        exact ⟨hq, by simp only [off]; omega⟩
      · simp only [Option.some.injEq] at e; subst e
        simp only [decide_eq_true_eq] at ha
        exact absurd ha hp

/-! ## nodes -/

theorem simple_snd {m : K} {cs : List M} {inj : List K} {rm rc : Rx} {z z' : Bool} (hg : GoodK cx P m) (hm : Snd cx P rm z m)
    (hd : Snd cx P rc z' (dfs cs inj)) (hz : z' = true → z = true ∧ ∀ st st', m st = some st' → st'.start = st.start ∧ st'.pos = st.pos) :
    Snd cx P (.seq rm rc) z (simpleMatch m cs inj) := by
  intro st st' h hz0 e ha
  simp only [simpleMatch] at e
  split at e
  · simp at e
  · rename_i st1 e1
    have g1 := hg.get h e1
    split at e
    · rename_i ha1
      split at e
      · simp at e
      · rename_i st2 e2
        split at e
        · rename_i ha2
          simp only [Option.some.injEq] at e; subst e
          refine ⟨off st1, hm st st1 h hz0 e1 ha1, hd st1 st2 g1 ?_ e2 ha⟩
          intro hz'
          obtain ⟨h1, h2⟩ := hz hz'
          obtain ⟨h3, h4⟩ := h2 st st1 e1
          rw [h3, h4]; exact hz0 h1
        · rename_i ha2
          simp only [Option.some.injEq] at e; subst e; simp at ha ha2; simp [ha] at ha2
    · rename_i ha1
      simp only [Option.some.injEq] at e; subst e; exact absurd ha ha1

theorem rep_snd {m : K} {r : Rx} (hg : GoodK cx P m) (hm : Snd cx P r false m) : ∀ (n : Nat) (st : St) (b : Bool) (st' : St),
    Good cx P st → repLoop m n st = some (b, st') → Good cx P st' ∧ (b = true → Iter (Den cx.query r) n (off st) (off st')) ∧
      (b = false → st'.accepted = false) := by
  intro n
  induction n with
  | zero =>
    intro st b st' h e
    simp only [repLoop, Option.some.injEq, Prod.mk.injEq] at e
    obtain ⟨rfl, rfl⟩ := e
    exact ⟨h, fun _ => rfl, by simp⟩
  | succ n ih =>
    intro st b st' h e
    simp only [repLoop] at e
    split at e
    · simp at e
    · rename_i st1 e1
      have g1 := hg.get h e1
      split at e
      · rename_i ha
        obtain ⟨h1, h2, h3⟩ := ih st1 b st' g1 e
        exact ⟨h1, fun hb => ⟨off st1, hm st st1 h (by simp) e1 ha, h2 hb⟩, h3⟩
      · rename_i ha
        simp only [Option.some.injEq, Prod.mk.injEq] at e
        obtain ⟨rfl, rfl⟩ := e
        exact ⟨g1, by simp, fun _ => by simpa using ha⟩

theorem repeated_snd {m : K} {n : Nat} {cs : List M} {inj : List K} {r rc : Rx} {z : Bool} (hg : GoodK cx P m)
    (hm : Snd cx P r false m) (hd : Snd cx P rc false (dfs cs [])) :
    Snd cx P (.seq (.rep r n (some n)) rc) z (repeatedMatch m n cs inj) := by
  intro st st' h _ e ha
  simp only [repeatedMatch] at e
  split at e
  · simp at e
  · rename_i st1 e1
    have := (rep_snd hg hm n st _ st1 h e1).2.2 rfl
    simp only [Option.some.injEq] at e; subst e; rw [this] at ha; simp at ha
  · rename_i st1 e1
    obtain ⟨h1, h2, _⟩ := rep_snd hg hm n st _ st1 h e1
    exact ⟨off st1, ⟨n, Nat.le_refl _, by intro b hb; simp at hb; omega, h2 rfl⟩, hd st1 st' h1 (by simp) e ha⟩

theorem grow_snd {m : K} {r : Rx} (hg : GoodK cx P m) (hm : Snd cx P r false m) (hcl : Clean m) : ∀ (n k : Nat) (st : St) (k' : Nat)
    (st' : St), Good cx P st → growLoop m n k st = some (k', st') →
    Good cx P st' ∧ k ≤ k' ∧ k' ≤ k + n ∧ Iter (Den cx.query r) (k' - k) (off st) (off st') ∧ (k < k' → st'.accepted = true) := by
  intro n
  induction n with
  | zero =>
    intro k st k' st' h e
    simp only [growLoop, Option.some.injEq, Prod.mk.injEq] at e
    obtain ⟨rfl, rfl⟩ := e
    exact ⟨h, by omega, by omega, by simp [Iter], by omega⟩
  | succ n ih =>
    intro k st k' st' h e
    simp only [growLoop] at e
    split at e
    · simp at e
    · rename_i st1 e1
      have g1 := hg.get h e1
      split at e
      · rename_i ha
        obtain ⟨h1, h2, h3, h4, h5⟩ := ih (k + 1) st1 k' st' g1 e
        refine ⟨h1, by omega, by omega, ?_, fun _ => ?_⟩
        · rw [show k' - k = (k' - (k + 1)) + 1 by omega]
          exact ⟨off st1, hm st st1 h (by simp) e1 ha, h4⟩
        · by_cases hk : k + 1 < k'
          · exact h5 hk
          · have : k' = k + 1 := by omega
            subst this
            exact growLoop_same _ _ _ _ e ha
      · rename_i ha
        simp only [Option.some.injEq, Prod.mk.injEq] at e
        obtain ⟨rfl, rfl⟩ := e
        have h0 : 0 ≤ st.pos := by have := h.lo; have := h.pos; omega
        have := hcl st st1 h0 e1 (by simpa using ha)
        refine ⟨g1.flag true, by omega, by omega, ?_, by omega⟩
        simp [Iter, off, this]
where
  growLoop_same {m : K} : ∀ (n k : Nat) (st st' : St), growLoop m n k st = some (k, st') → st.accepted = true → st'.accepted = true := by
    intro n k st st' e ha
    cases n with
    | zero => simp only [growLoop, Option.some.injEq, Prod.mk.injEq] at e; rw [← e.2]; exact ha
    | succ n =>
      simp only [growLoop] at e
      split at e
      · simp at e
      · split at e
        · have := growLoop_ge n (k + 1) _ _ _ e
          omega
        · simp only [Option.some.injEq, Prod.mk.injEq] at e; rw [← e.2]
  growLoop_ge {m : K} : ∀ (n k : Nat) (st : St) (k' : Nat) (st' : St), growLoop m n k st = some (k', st') → k ≤ k' := by
    intro n
    induction n with
    | zero => intro k st k' st' e; simp only [growLoop, Option.some.injEq, Prod.mk.injEq] at e; omega
    | succ n ih =>
      intro k st k' st' e
      simp only [growLoop] at e
      split at e
      · simp at e
      · split at e
        · have := ih (k + 1) _ _ _ e; omega
        · simp only [Option.some.injEq, Prod.mk.injEq] at e; omega

theorem backtrack_nil : greedyBacktrack [] [] = fun st => some st := by
  funext st; simp [greedyBacktrack, dfsInj, dfs]

/-- Greedy, alone, over anything that restores its position. -/
theorem greedy_snd_alone {m : K} {lo hi : Nat} {r : Rx} {z : Bool} (hg : GoodK cx P m) (hm : Snd cx P r false m) (hcl : Clean m)
    (hlh : lo ≤ hi) : Snd cx P (.seq (.rep r lo (boundOf hi)) .eps) z (greedyMatch m lo hi [] []) := by
  intro st st' h _ e ha
  simp only [greedyMatch] at e
  split at e
  · simp at e
  · rename_i st1 e1
    have := (rep_snd hg hm lo st _ st1 h e1).2.2 rfl
    simp only [Option.some.injEq] at e; subst e; rw [this] at ha; simp at ha
  · rename_i st1 e1
    obtain ⟨g1, i1, _⟩ := rep_snd hg hm lo st _ st1 h e1
    split at e
    · simp at e
    · rename_i k st2 e2
      obtain ⟨g2, k1, k2, i2, a2⟩ := grow_snd hg hm hcl (hi - lo) lo st1 k st2 g1 e2
      rw [backtrack_nil] at e
      have hpos : off st' = off st2 := by
        cases hk : k - lo with
        | zero =>
          rw [hk] at e
          simp only [btLoop, dfs_nil, Option.some.injEq] at e
          rw [← e]; rfl
        | succ n =>
          rw [hk] at e
          have := a2 (by omega)
          simp only [btLoop, this, if_true, Option.some.injEq] at e
          rw [e]
      refine ⟨off st', ?_, rfl⟩
      rw [hpos]
      have := iter_add (i1 rfl) i2
      rw [show lo + (k - lo) = k by omega] at this
      exact den_rep k1 (by omega) this

/-- Greedy, in front of what cannot fail, over anything that restores its position. -/
theorem greedy_snd_total {m : K} {lo hi : Nat} {cs : List M} {inj : List K} {r rc : Rx} {z : Bool} (hg : GoodK cx P m) (hm : Snd cx P r false m) (hcl : Clean m)
    (hne : cs.isEmpty = false) (ht : Total (dfs cs [])) (hd : Snd cx P rc false (dfs cs [])) (hlh : lo ≤ hi) :
    Snd cx P (.seq (.rep r lo (boundOf hi)) rc) z (greedyMatch m lo hi cs inj) := by
  intro st st' h _ e ha
  have hbt : greedyBacktrack cs inj = dfs cs [] := by funext a; simp [greedyBacktrack, hne]
  simp only [greedyMatch] at e
  split at e
  · simp at e
  · rename_i st1 e1
    have := (rep_snd hg hm lo st _ st1 h e1).2.2 rfl
    simp only [Option.some.injEq] at e; subst e; rw [this] at ha; simp at ha
  · rename_i st1 e1
    obtain ⟨g1, i1, _⟩ := rep_snd hg hm lo st _ st1 h e1
    split at e
    · simp at e
    · rename_i k st2 e2
      obtain ⟨g2, k1, k2, i2, a2⟩ := grow_snd hg hm hcl (hi - lo) lo st1 k st2 g1 e2
      rw [hbt] at e
      refine ⟨off st2, ?_, ?_⟩
      · have := iter_add (i1 rfl) i2
        rw [show lo + (k - lo) = k by omega] at this
        exact den_rep k1 (by omega) this
      · cases hk : k - lo with
        | zero =>
          rw [hk] at e
          simp only [btLoop] at e
          exact hd { st2 with accepted := true } st' (g2.flag true) (by simp) e ha
        | succ n =>
          rw [hk] at e
          have h2 := a2 (by omega)
          simp only [btLoop] at e
          cases e3 : dfs cs [] st2 with
          | none => simp [e3] at e
          | some st3 =>
            have h3 := ht _ _ e3 h2
            simp only [e3, h3, if_true, Option.some.injEq] at e
            subst e
            exact hd st2 st3 g2 (by simp) e3 h3

/-- Greedy with equal bounds. -/
theorem greedy_snd_exact {m : K} {n : Nat} {cs : List M} {inj : List K} {r rc : Rx} {z : Bool} (hg : GoodK cx P m)
    (hm : Snd cx P r false m) (hd : Snd cx P rc false (dfs cs [])) :
    Snd cx P (.seq (.rep r n (boundOf n)) rc) z (greedyMatch m n n cs inj) := by
  intro st st' h _ e ha
  simp only [greedyMatch] at e
  split at e
  · simp at e
  · rename_i st1 e1
    have := (rep_snd hg hm n st _ st1 h e1).2.2 rfl
    simp only [Option.some.injEq] at e; subst e; rw [this] at ha; simp at ha
  · rename_i st1 e1
    obtain ⟨g1, i1, _⟩ := rep_snd hg hm n st _ st1 h e1
    simp only [Nat.sub_self, growLoop, btLoop] at e
    exact ⟨off st1, den_rep (Nat.le_refl _) (Nat.le_refl _) (i1 rfl), hd { st1 with accepted := true } st' (g1.flag true) (by simp) e ha⟩

theorem verdict_snd {b : K} {r : Rx} (hd : Snd cx P r false b) {st : St} (h : Good cx P st) {x : Nat} {y : Int}
    (h1 : st.pos ≤ x) (h2 : x ≤ cx.query.length) (hv : verdict b st (x : Int) = some (true, y)) : Den cx.query r x y.toNat := by
  obtain ⟨s, e1, e2, e3⟩ := verdict_some hv
  have hp := h.pos
  have := hd { st with pos := (x : Int), accepted := true } s (h.both true (by omega) (by simp only [Ctx.qend]; omega)) (by simp) e1 e2
  simpa [off, e3] using this

/-- Greedy over a character class. -/
theorem greedy_snd_char {p : Int → Bool} {lo hi : Nat} {cs : List M} {inj : List K} {r rc : Rx} {z : Bool}
    (hr : ∀ q i j n, Iter (Den q r) n i j ↔ (j = i + n ∧ InClass q p i n))
    (hb : Rest (greedyBacktrack cs inj)) (hcl : Clean (greedyBacktrack cs inj)) (hR : Rest (dfs cs []))
    (hd : Snd cx P rc false (dfs cs [])) (hbd : Snd cx P rc false (greedyBacktrack cs inj)) (hlh : lo ≤ hi) :
    Snd cx P (.seq (.rep r lo (boundOf hi)) rc) z (greedyMatch (charStep cx p) lo hi cs inj) := by
  intro st st' h _ e ha
  obtain ⟨hn, hl⟩ := h.nat
  rcases greedy_char hb hcl hR hlh hn e with ⟨_, h2⟩ | ⟨k, k1, k2, k3, _, hk⟩
  · rw [h2] at ha; simp at ha
  · rcases hk with ⟨d, d1, d2, d3, _, _⟩ | ⟨hv, _⟩
    · have hin := inClass_mono k3 d2
      have hlen := inClass_len hin hl
      refine ⟨off st + d, den_rep (n := d) (by omega) (by omega) ((hr _ _ _ _).2 ⟨rfl, hin⟩), ?_⟩
      exact verdict_snd hbd h (by omega) hlen d3
    · have hin := inClass_mono k3 k1
      have hlen := inClass_len hin hl
      rw [ha] at hv
      refine ⟨off st + lo, den_rep (n := lo) (by omega) (by omega) ((hr _ _ _ _).2 ⟨rfl, hin⟩), ?_⟩
      exact verdict_snd hd h (by omega) hlen hv

theorem backtrack_snd {cs : List M} {inj : List K} {rc : Rx} (hd : Snd cx P rc false (dfs cs []))
    (hnil : cs = [] → rc = .eps) : Snd cx P rc false (greedyBacktrack cs inj) := by
  intro st st' h hz e ha
  simp only [greedyBacktrack] at e
  split at e
  · rename_i hc
    rw [hnil (List.isEmpty_iff.1 hc)]
    split at e
    · simp at e
    · simp only [Option.some.injEq] at e; subst e; simp [Den, off]
  · exact hd st st' h hz e ha

theorem backtrack_clean {cs : List M} {inj : List K} (hd : Clean (dfs cs [])) : Clean (greedyBacktrack cs inj) := by
  intro st st' h0 e ha
  simp only [greedyBacktrack] at e
  split at e
  · split at e
    · simp at e
    · simp only [Option.some.injEq] at e; subst e; rfl
  · exact hd st st' h0 e ha

/-- `X?` where the attempt began. -/
theorem optional_snd_start {p : Int → Bool} {cs : List M} {inj : List K} {r rc : Rx}
    (hr : ∀ q i j n, Iter (Den q r) n i j ↔ (j = i + n ∧ InClass q p i n))
    (hgb : GoodK cx P (greedyBacktrack cs inj)) (hcl : Clean (greedyBacktrack cs inj))
    (hbd : Snd cx P rc false (greedyBacktrack cs inj)) :
    Snd cx P (.seq (.rep r 0 (boundOf 1)) rc) true (optionalMatch (charStep cx p) 1 cs inj) := by
  intro st st' h hz e ha
  obtain ⟨hn, hl⟩ := h.nat
  have h0 : 0 ≤ st.pos := by omega
  have none0 : ∀ s s' : St, Good cx P s → s.pos = st.pos → greedyBacktrack cs inj s = some s' → s'.accepted = true →
      Den cx.query (.seq (.rep r 0 (boundOf 1)) rc) (off st) (off s') := by
    intro s s' hs hp e1 ha1
    have : off s = off st := by unfold off; rw [hp]
    exact ⟨off st, den_rep (n := 0) (by omega) (by omega) rfl, this ▸ hbd s s' hs (by simp) e1 ha1⟩
  simp only [optionalMatch] at e
  by_cases hin : InClass cx.query p (off st) 1
  · rw [step_yes hn hin] at e
    simp only at e
    have hlen := inClass_len hin hl
    have hp := h.pos
    have g1 : Good cx P { st with pos := ((off st + 1 : Nat) : Int), accepted := true } :=
      h.both true (by omega) (by simp only [Ctx.qend]; omega)
    split at e
    · simp at e
    · rename_i st2 e2
      have g2 := hgb.get g1 e2
      split at e
      · rename_i hcond
        simp only [Bool.and_eq_true, Bool.not_eq_true', decide_eq_true_eq] at hcond
        have hp2 := hcl _ _ (by simp only; omega) e2 hcond.1
        simp only at hp2
        refine none0 _ st' (g2.move ?_ ?_) (by simp only; omega) e ha
        · omega
        · have := g2.pos; omega
      · simp only [Option.some.injEq] at e; subst e
        refine ⟨off st + 1, den_rep (n := 1) (by omega) (by omega) ((hr _ _ _ _).2 ⟨rfl, hin⟩), ?_⟩
        have ho : off { st with pos := ((off st + 1 : Nat) : Int), accepted := true } = off st + 1 := rfl
        exact ho ▸ hbd _ _ g1 (by simp) e2 ha
  · rw [step_no hn hin] at e
    simp only at e
    have g1 : Good cx P { st with accepted := false } := h.flag false
    split at e
    · simp at e
    · rename_i st2 e2
      have g2 := hgb.get g1 e2
      split at e
      · rename_i hcond
        simp only [Bool.and_eq_true, Bool.not_eq_true', decide_eq_true_eq] at hcond
        have hp2 := hcl { st with accepted := false } _ h0 e2 hcond.1
        have := hz rfl
        simp only at hp2
        have h3 := g2.start; have h4 := h.start
        omega
      · simp only [Option.some.injEq] at e; subst e
        exact none0 _ _ g1 rfl e2 ha

/-- `X?` with nothing behind it. -/
theorem optional_snd_alone {m : K} {w : Nat} {r : Rx} {z : Bool} (hm : Snd cx P r false m) :
    Snd cx P (.seq (.rep r 0 (boundOf 1)) .eps) z (optionalMatch m w [] []) := by
  intro st st' h hz e ha
  simp only [optionalMatch, backtrack_nil] at e
  split at e
  · simp at e
  · rename_i st1 e1
    split at e
    · rename_i hcond
      simp only [Bool.and_eq_true, Bool.not_eq_true'] at hcond
      simp only [Option.some.injEq] at e; subst e; simp [hcond.1] at ha
    · simp only [Option.some.injEq] at e; subst e
      exact ⟨off st1, den_rep (n := 1) (by omega) (by omega) (iter_one (hm st st1 h (by simp) e1 ha)), rfl⟩

theorem lazyLoop_snd {m : K} {cs : List M} {inj : List K} {b : Int} {r rc : Rx} (hg : GoodK cx P m) (hm : Snd cx P r false m)
    (hgd : GoodK cx P (dfs cs [])) (hd : Snd cx P rc false (dfs cs [])) (hcl : Clean (dfs cs []))
    (hi : ∀ k ∈ inj, GoodK cx P k) : ∀ (n : Nat) (st : St) (f : Bool) (st' : St), Good cx P st →
    lazyLoop cx m cs inj b n st = some (f, st') →
    (f = true → st'.accepted = true → ∃ k x, k ≤ n ∧ Iter (Den cx.query r) k (off st) x ∧ Den cx.query rc x (off st')) ∧
    (f = false → Good cx P st' ∧ ∃ k, k ≤ n ∧ Iter (Den cx.query r) k (off st) (off st')) := by
  intro n
  induction n with
  | zero =>
    intro st f st' h e
    simp only [lazyLoop, Option.some.injEq, Prod.mk.injEq] at e
    obtain ⟨rfl, rfl⟩ := e
    exact ⟨by simp, fun _ => ⟨h, 0, by omega, rfl⟩⟩
  | succ n ih =>
    intro st f st' h e
    have h0 : 0 ≤ st.pos := by have := h.lo; have := h.pos; omega
    -- one more repetition from a state at the same position
    have more : ∀ s s2 : St, Good cx P s → s.pos = st.pos → m s = some s2 →
        (if s2.accepted = true then lazyLoop cx m cs inj b n s2 else some (true, { s2 with pos := b })) = some (f, st') →
        (f = true → st'.accepted = true → ∃ k x, k ≤ n + 1 ∧ Iter (Den cx.query r) k (off st) x ∧ Den cx.query rc x (off st')) ∧
        (f = false → Good cx P st' ∧ ∃ k, k ≤ n + 1 ∧ Iter (Den cx.query r) k (off st) (off st')) := by
      intro s s2 hs hp e2 e3
      have ho : off s = off st := by unfold off; rw [hp]
      have g2 := hg.get hs e2
      split at e3
      · rename_i ha2
        have hstep := hm s s2 hs (by simp) e2 ha2
        rw [ho] at hstep
        obtain ⟨i1, i2⟩ := ih s2 f st' g2 e3
        refine ⟨fun hf ha => ?_, fun hf => ?_⟩
        · obtain ⟨k, x, k1, k2, k3⟩ := i1 hf ha
          exact ⟨k + 1, x, by omega, ⟨_, hstep, k2⟩, k3⟩
        · obtain ⟨g, k, k1, k2⟩ := i2 hf
          exact ⟨g, k + 1, by omega, ⟨_, hstep, k2⟩⟩
      · rename_i ha2
        simp only [Option.some.injEq, Prod.mk.injEq] at e3
        obtain ⟨rfl, rfl⟩ := e3
        refine ⟨fun _ ha => ?_, by simp⟩
        simp only at ha; exact absurd ha ha2
    simp only [lazyLoop] at e
    split at e
    · split at e
      · split at e
        · simp at e
        · rename_i st1 e1
          have g1 := (dfsInj_good hi).get h e1
          split at e
          · simp only [Option.some.injEq, Prod.mk.injEq] at e
            obtain ⟨rfl, rfl⟩ := e
            exact ⟨by simp, fun _ => ⟨g1.move h.pos.1 h.pos.2, 0, by omega, by simp [Iter, off]⟩⟩
          · split at e
            · simp at e
            · rename_i st2 e2
              exact more _ st2 (g1.move h.pos.1 h.pos.2) rfl e2 e
      · split at e
        · simp at e
        · rename_i st1 e1
          have g1 := hgd.get h e1
          split at e
          · simp only [Option.some.injEq, Prod.mk.injEq] at e
            obtain ⟨rfl, rfl⟩ := e
            exact ⟨fun _ ha => ⟨0, off st, by omega, rfl, hd st st1 h (by simp) e1 ha⟩, by simp⟩
          · rename_i ha1
            split at e
            · simp at e
            · rename_i st2 e2
              exact more st1 st2 g1 (hcl st st1 h0 e1 (by simpa using ha1)) e2 e
    · simp only [Option.some.injEq, Prod.mk.injEq] at e
      obtain ⟨rfl, rfl⟩ := e
      exact ⟨by simp, fun _ => ⟨h, 0, by omega, rfl⟩⟩

theorem lazy_snd {m : K} {lo hi : Nat} {cs : List M} {inj : List K} {r rc : Rx} {z : Bool} (hg : GoodK cx P m)
    (hm : Snd cx P r false m) (hgd : GoodK cx P (dfs cs [])) (hd : Snd cx P rc false (dfs cs [])) (hcl : Clean (dfs cs []))
    (hinj : ∀ k ∈ inj, GoodK cx P k) (hlh : lo ≤ hi) :
    Snd cx P (.seq (.rep r lo (boundOf hi)) rc) z (lazyMatch cx m lo hi cs inj) := by
  intro st st' h _ e ha
  simp only [lazyMatch] at e
  split at e
  · simp at e
  · rename_i st1 e1
    have := (rep_snd hg hm lo st _ st1 h e1).2.2 rfl
    simp only [Option.some.injEq] at e; subst e; rw [this] at ha; simp at ha
  · rename_i st1 e1
    obtain ⟨g1, i1, _⟩ := rep_snd hg hm lo st _ st1 h e1
    split at e
    · simp at e
    · rename_i st2 e2
      simp only [Option.some.injEq] at e; subst e
      obtain ⟨k, x, k1, k2, k3⟩ := (lazyLoop_snd hg hm hgd hd hcl hinj _ _ _ _ g1 e2).1 rfl ha
      exact ⟨x, den_rep (n := lo + k) (by omega) (by omega) (iter_add (i1 rfl) k2), k3⟩
    · rename_i st2 e2
      obtain ⟨g2, k, k1, k2⟩ := (lazyLoop_snd hg hm hgd hd hcl hinj _ _ _ _ g1 e2).2 rfl
      exact ⟨off st2, den_rep (n := lo + k) (by omega) (by omega) (iter_add (i1 rfl) k2), hd st2 st' g2 (by simp) e ha⟩

theorem possLoop_snd {m : K} {lo : Nat} {r : Rx} (hg : GoodK cx P m) (hm : Snd cx P r false m) : ∀ (n i : Nat) (last : Int) (st : St)
    (f : Bool) (st' : St), Good cx P st → last = st.pos → possLoop m lo n i last st = some (f, st') →
    (f = false → st'.accepted = false) ∧
    (f = true → Good cx P st' ∧ ∃ k, k ≤ n ∧ (k = n ∨ lo ≤ i + k) ∧ Iter (Den cx.query r) k (off st) (off st')) := by
  intro n
  induction n with
  | zero =>
    intro i last st f st' h hl e
    simp only [possLoop, Option.some.injEq, Prod.mk.injEq] at e
    obtain ⟨rfl, rfl⟩ := e
    exact ⟨by simp, fun _ => ⟨h, 0, by omega, by omega, rfl⟩⟩
  | succ n ih =>
    intro i last st f st' h hl e
    simp only [possLoop] at e
    split at e
    · simp at e
    · rename_i st1 e1
      have g1 := hg.get h e1
      split at e
      · rename_i ha
        obtain ⟨i1, i2⟩ := ih (i + 1) st1.pos st1 f st' g1 rfl e
        refine ⟨i1, fun hf => ?_⟩
        obtain ⟨g, k, k1, k2, k3⟩ := i2 hf
        exact ⟨g, k + 1, by omega, by omega, _, hm st st1 h (by simp) e1 ha, k3⟩
      · rename_i ha
        split at e
        · simp only [Option.some.injEq, Prod.mk.injEq] at e
          obtain ⟨rfl, rfl⟩ := e
          exact ⟨fun _ => by simpa using ha, by simp⟩
        · simp only [Option.some.injEq, Prod.mk.injEq] at e
          obtain ⟨rfl, rfl⟩ := e
          refine ⟨by simp, fun _ => ⟨g1.both true (by rw [hl]; exact h.pos.1) (by rw [hl]; exact h.pos.2), 0, by omega, by omega, ?_⟩⟩
          simp [Iter, off, hl]

theorem possessive_snd {m : M} {lo hi : Nat} {cs : List M} {inj : List K} {r rc : Rx} {z : Bool} (hg : GoodK cx P (m inj))
    (hm : Snd cx P r false (m inj)) (hd : Snd cx P rc false (dfs cs [])) (hlh : lo ≤ hi) :
    Snd cx P (.seq (.rep r lo (boundOf hi)) rc) z (possessiveMatch m lo hi cs inj) := by
  intro st st' h _ e ha
  simp only [possessiveMatch] at e
  split at e
  · simp at e
  · rename_i st1 e1
    have := (possLoop_snd hg hm hi 0 st.pos st _ st1 h rfl e1).1 rfl
    simp only [Option.some.injEq] at e; subst e; rw [this] at ha; simp at ha
  · rename_i st1 e1
    obtain ⟨g, k, k1, k2, k3⟩ := (possLoop_snd hg hm hi 0 st.pos st _ st1 h rfl e1).2 rfl
    exact ⟨off st1, den_rep (n := k) (by omega) k1 k3, hd st1 st' g (by simp) e ha⟩

theorem group_snd {m : M} {idx : Nat} {cs : List M} {inj : List K} {rm rc : Rx} {z : Bool} (hidx : idx < P.n)
    (hg : GoodK cx P (m (cs.map (fun c => c [])))) (hm : Snd cx P rm false (m (cs.map (fun c => c []))))
    (hC : ∀ st st', Good cx P st → m (cs.map (fun c => c [])) st = some st' → st'.accepted = true → P.C idx st.pos st'.pos)
    (hd : Snd cx P rc false (dfs cs (cs.map (fun c => c []) ++ inj))) :
    Snd cx P (.seq rm rc) z (groupMatch m idx cs inj) := by
  intro st st' h _ e ha
  have hgid := group_good (cs := []) (inj := []) (m := fun _ => m (cs.map (fun c => c []))) hidx hg
    (by simp only [List.map_nil, List.append_nil]; intro s hs; exact ⟨s, rfl, hs⟩) hC
  simp only [groupMatch] at e
  split at e
  · simp at e
  · rename_i st1 e1
    split at e
    · rename_i ha1
      split at e
      · rename_i hlt
        have g1 : Good cx P { st1 with groups := st1.groups.set idx (some (st.pos, st1.pos)) } := by
          refine hgid.get h ?_
          simp [groupMatch, e1, ha1, hlt, dfs]
        refine ⟨off st1, hm st st1 h (by simp) e1 ha1, ?_⟩
        have := hd _ st' g1 (by simp) e ha
        simpa [off] using this
      · simp at e
    · rename_i ha1
      simp only [Option.some.injEq] at e; subst e; exact absurd ha ha1

end

theorem dfs_snd {cx : Ctx} {P : Par} {z : Bool} : ∀ (cs : List Node) (inj : List K),
    (∀ c ∈ cs, ∀ inj', (inj' = inj ∨ inj' = []) → GoodK cx P (run cx c inj') ∧ Snd cx P (toRx c) z (run cx c inj')) →
    cleans cs.dropLast = true → GoodK cx P (dfs (runs cx cs) inj) ∧ Snd cx P (contOf (toRxs cs)) z (dfs (runs cx cs) inj) := by
  intro cs inj hc hcl
  have main : ∀ (cs : List Node) (inj : List K), cs ≠ [] →
      (∀ c ∈ cs, ∀ inj', (inj' = inj ∨ inj' = []) → GoodK cx P (run cx c inj') ∧ Snd cx P (toRx c) z (run cx c inj')) →
      cleans cs.dropLast = true → GoodK cx P (dfs (runs cx cs) inj) ∧
      ∀ st st', Good cx P st → (z = true → st.start = st.pos) → dfs (runs cx cs) inj st = some st' → st'.accepted = true →
        ∃ c ∈ cs, Den cx.query (toRx c) (off st) (off st') := by
    intro cs
    induction cs with
    | nil => intro inj h; exact absurd rfl h
    | cons c cs ih =>
      intro inj _ hc hcl
      obtain ⟨g, s⟩ := hc c (by simp) inj (Or.inl rfl)
      cases cs with
      | nil =>
        simp only [runs]
        refine ⟨fun st h => ?_, fun st st' h hz e ha => ⟨c, by simp, s st st' h hz (by simpa [dfs] using e) ha⟩⟩
        obtain ⟨st', e, h'⟩ := g st h
        exact ⟨st', by simp [dfs, e], h'⟩
      | cons d ds =>
        simp only [List.dropLast_cons₂, cleans, Bool.and_eq_true] at hcl
        obtain ⟨g2, s2⟩ := ih [] (by simp) (fun x hx inj' hi => hc x (by simp [List.mem_cons.1 hx]) inj' (Or.inr (by rcases hi with h | h <;> exact h))) hcl.2
        simp only [runs] at g2 s2 ⊢
        refine ⟨fun st h => ?_, fun st st' h hz e ha => ?_⟩
        · obtain ⟨st1, e1, h1⟩ := g st h
          simp only [dfs, e1]
          split
          · exact ⟨st1, rfl, h1⟩
          · exact g2 _ (h1.flag true)
        · simp only [dfs] at e
          split at e
          · simp at e
          · rename_i st1 e1
            have g1 := g.get h e1
            split at e
            · rename_i ha1
              simp only [Option.some.injEq] at e; subst e
              exact ⟨c, by simp, s st st1 h hz e1 ha1⟩
            · rename_i ha1
              have h0 : 0 ≤ st.pos := by have := h.lo; have := h.pos; omega
              have hp := run_clean cx c hcl.1 inj st st1 h0 e1 (by simpa using ha1)
              obtain ⟨x, hx, hd⟩ := s2 { st1 with accepted := true } st' (g1.flag true)
                (fun hz' => by simp only; rw [g1.start, ← h.start, hp]; exact hz hz') e ha
              refine ⟨x, by simp [List.mem_cons.1 hx], ?_⟩
              have : off { st1 with accepted := true } = off st := by simp [off, hp]
              rw [← this]; exact hd
  by_cases hne : cs = []
  · subst hne
    simp only [runs, toRxs, contOf]
    refine ⟨fun st h => ⟨st, rfl, h⟩, fun st st' h _ e _ => ?_⟩
    simp only [dfs, Option.some.injEq] at e
    subst e; rfl
  · obtain ⟨g, s⟩ := main cs inj hne hc hcl
    refine ⟨g, fun st st' h hz e ha => ?_⟩
    rw [den_cont _ hne]
    exact s st st' h hz e ha

theorem cleans_dropLast : ∀ {cs : List Node}, cleans cs = true → cleans cs.dropLast = true
  | [], _ => rfl
  | [_], _ => rfl
  | c :: d :: cs, h => by
    simp only [cleans, Bool.and_eq_true] at h
    have := cleans_dropLast (cs := d :: cs) (by simp [cleans, h.2])
    simp [cleans, h.1, this]

theorem runs_eq_map (cx : Ctx) : ∀ cs : List Node, runs cx cs = cs.map (run cx)
  | [] => by simp [runs]
  | c :: cs => by simp [runs, runs_eq_map cx cs]

/-- What is injected: keeps the invariant, and its verdict does not depend on captures. -/
def Inj (cx : Ctx) (P : Par) (k : K) : Prop := GoodK cx P k ∧ Rest k

theorem single_iter {m : Node} (h : single m = true) (q : List Int) (i j n : Nat) :
    Iter (Den q (toRx m)) n i j ↔ (j = i + n ∧ InClass q (testOf m) i n) :=
  iter_class (classOf_oneCh (by simp [oneCh, h])) q n i j

theorem single_safe_caps : (∀ m : Node, single m = true → capsOf m = []) := by
  intro m
  refine Node.rec (motive_1 := fun m => single m = true → capsOf m = []) (motive_2 := fun cs => singles cs = true → capsOfs cs = [])
    ?_ ?_ ?_ ?_ ?_ ?_ ?_ ?_ ?_ ?_ ?_ ?_ ?_ ?_ ?_ ?_ ?_ m <;> simp_all [single, singles, capsOf, capsOfs]

theorem snds_weaken_nil {α : Type} {inj : List α} {ib : Bool} (h : ib = false → inj = []) : ∀ inj', (inj' = inj ∨ inj' = []) →
    (ib = false → inj' = []) := by
  intro inj' hi hib
  rcases hi with rfl | rfl
  · exact h hib
  · rfl

mutual
/-- The soundness theorem of the engine. -/
theorem run_snd {cx : Ctx} {P : Par} {nul : Bool} (hnul : nul = true → cx.post.head? = some 0) :
    ∀ (t : Node) (ib z : Bool), safe nul t = true → snd ib z t = true → (∀ i ∈ slots t, i < P.n) →
    (∀ x ∈ capsOf t, ∀ a b : Int, 0 ≤ a → 0 ≤ b → Den cx.query (toRx x.2) a.toNat b.toNat → P.C x.1 a b) → ∀ inj,
    (∀ k ∈ inj, Inj cx P k) → (ib = false → inj = []) → GoodK cx P (run cx t inj) ∧ Snd cx P (toRx t) z (run cx t inj)
  | .exact s d, _, z, h, _, _, _, inj, _, _ => by
    simp only [safe, Bool.or_eq_true, decide_eq_true_eq, Bool.and_eq_true] at h
    simp only [run, toRx]
    rcases h with h | ⟨h1, h2⟩
    · exact ⟨exact_good_short h, exact_snd (Or.inl h) z⟩
    · exact ⟨exact_good (hnul h1) (by simpa using h2), exact_snd (Or.inr ⟨hnul h1, by simpa using h2⟩) z⟩
  | .range a b d, _, z, _, _, _, _, inj, _, _ => by
    simp only [run]
    exact ⟨charStep_good _, charStep_snd (classOf_oneCh (m := .range a b d) rfl) z⟩
  | .word, _, z, _, _, _, _, inj, _, _ => by
    simp only [run]
    exact ⟨charStep_good _, charStep_snd (classOf_oneCh (m := .word) rfl) z⟩
  | .any, _, z, _, _, _, _, inj, _, _ => by
    simp only [run]
    exact ⟨charStep_good _, charStep_snd (classOf_oneCh (m := .any) rfl) z⟩
  | .space, _, z, _, _, _, _, inj, _, _ => by
    have e : run cx .space inj = skipStep cx (testOf .space) := funext (run_skipping cx .space rfl inj)
    rw [e]
    exact ⟨skipStep_good _, skipStep_snd (classOf_oneCh (m := .space) rfl) z⟩
  | .bos, _, z, _, _, _, _, inj, _, _ => by simp only [run, toRx]; exact ⟨bos_good, bos_snd z⟩
  | .eol, _, z, h, _, _, _, inj, _, _ => by
    simp only [safe] at h
    simp only [run, toRx]; exact ⟨eol_good (hnul h), eol_snd (hnul h) z⟩
  | .negated m, _, z, h, _, _, _, inj, _, _ => by
    simp only [safe] at h
    have hs : skipping (.negated m) = true := by simpa [skipping] using h
    have e : run cx (.negated m) inj = skipStep cx (testOf (.negated m)) := funext (run_skipping cx _ hs inj)
    rw [e]
    exact ⟨skipStep_good _, skipStep_snd (classOf_oneCh (by simp [oneCh, hs])) z⟩
  | .simple m cs, ib, z, h, hs, hsl, hC, inj, hinj, hib => by
    simp only [safe, Bool.and_eq_true] at h
    simp only [snd, Bool.and_eq_true] at hs
    simp only [slots, List.mem_append] at hsl
    simp only [capsOf, List.mem_append] at hC
    obtain ⟨g1, s1⟩ := run_snd hnul m false z h.1 hs.1.1 (fun i hi => hsl i (Or.inl hi)) (fun x hx => hC x (Or.inl hx)) [] (by simp) (by simp)
    obtain ⟨g2, s2⟩ := dfs_snd cs inj (fun c hc inj' hi' => runs_snd hnul cs ib (z && isBos m) h.2 hs.1.2 (fun i hi => hsl i (Or.inr hi))
      (fun x hx => hC x (Or.inr hx)) c hc inj' (by rcases hi' with rfl | rfl; exact hinj; simp) (snds_weaken_nil hib inj' hi')) hs.2
    simp only [run, toRx]
    refine ⟨simple_good g1 g2, simple_snd g1 s1 s2 ?_⟩
    intro hz
    simp only [Bool.and_eq_true] at hz
    refine ⟨hz.1, fun st st' e => ?_⟩
    cases m <;> simp [isBos] at hz
    simp only [run, bosMatch] at e
    split at e <;> (simp only [Option.some.injEq] at e; subst e; exact ⟨rfl, rfl⟩)
  | .alt cs, ib, z, h, hs, hsl, hC, inj, hinj, hib => by
    simp only [safe] at h
    simp only [snd, Bool.and_eq_true] at hs
    simp only [slots] at hsl
    simp only [capsOf] at hC
    simp only [run, toRx]
    exact dfs_snd cs inj (fun c hc inj' hi' => runs_snd hnul cs ib z h hs.1 hsl hC c hc inj'
      (by rcases hi' with rfl | rfl; exact hinj; simp) (snds_weaken_nil hib inj' hi')) hs.2
  | .greedy m lo hi cs, ib, z, h, hs, hsl, hC, inj, hinj, hib => by
    simp only [safe, Bool.and_eq_true] at h
    simp only [snd, Bool.and_eq_true] at hs
    simp only [slots, List.mem_append] at hsl
    simp only [capsOf, List.mem_append] at hC
    obtain ⟨g1, s1⟩ := run_snd hnul m false false h.1.1 hs.1.1.1 (fun i hi => hsl i (Or.inl hi)) (fun x hx => hC x (Or.inl hx)) [] (by simp) (by simp)
    obtain ⟨g2, s2⟩ := dfs_snd cs [] (fun c hc inj' hi' => runs_snd hnul cs false false h.1.2 hs.1.1.2 (fun i hi => hsl i (Or.inr hi))
      (fun x hx => hC x (Or.inr hx)) c hc inj' (by rcases hi' with rfl | rfl <;> simp) (fun _ => by rcases hi' with h | h <;> exact h)) hs.1.2
    have hok := hs.2
    unfold greedyOk at hok
    have hnil : runs cx cs = [] → contOf (toRxs cs) = .eps := by
      intro hn; cases cs with
      | nil => simp [toRxs, contOf]
      | cons c cs => simp [runs] at hn
    cases ho : optPath m lo hi with
    | true =>
      rw [ho] at hok
      obtain ⟨rfl, rfl, hsz⟩ := (optPath_iff _ _ _).1 ho
      have hw : minSize m ≤ 1 := by
        have := h.2
        simp [hsz] at this
        omega
      rw [run_greedy_opt cx cs ho]
      refine ⟨optional_good hw g1 g2 (fun k hk => (hinj k hk).1), ?_⟩
      simp only [toRx]
      simp only [if_true, Bool.or_eq_true, Bool.and_eq_true, List.isEmpty_iff, Bool.not_eq_true'] at hok
      rcases hok with ⟨⟨rfl, hm⟩, hcl⟩ | ⟨rfl, hib'⟩
      · have e1 : run cx m [] = charStep cx (testOf m) := funext (run_single cx m hm [])
        rw [e1, single_sizes.1 m hm]
        have hbc := backtrack_clean (inj := inj) (clean_dfs _ [] (runs_clean cx cs hcl))
        exact optional_snd_start (single_iter hm) (backtrack_good g2 (fun k hk => (hinj k hk).1)) hbc (backtrack_snd s2 hnil)
      · rw [hib hib']
        simp only [runs, toRxs, contOf]
        exact optional_snd_alone s1
    | false =>
      rw [ho] at hok
      rw [run_greedy_loop cx cs ho]
      refine ⟨greedy_good g1 g2 (fun k hk => (hinj k hk).1), ?_⟩
      simp only [toRx]
      simp only [Bool.false_eq_true, if_false, Bool.or_eq_true, Bool.and_eq_true, List.isEmpty_iff, Bool.not_eq_true', decide_eq_true_eq] at hok
      obtain ⟨hlh, ((⟨hm, hcl⟩ | ⟨⟨rfl, hib'⟩, hcl⟩) | ⟨⟨hne, htot⟩, hcl⟩) | rfl⟩ := hok
      · have e1 : run cx m [] = charStep cx (testOf m) := funext (run_single cx m hm [])
        rw [e1]
        have hbc := backtrack_clean (inj := inj) (clean_dfs _ [] (runs_clean cx cs hcl))
        exact greedy_snd_char (single_iter hm) (rest_backtrack cx cs inj (fun k hk => (hinj k hk).2)) hbc
          (rest_dfs cx cs [] (by simp)) s2 (backtrack_snd s2 hnil) hlh
      · rw [hib hib']
        simp only [runs, toRxs, contOf]
        exact greedy_snd_alone g1 s1 (run_clean cx m hcl []) hlh
      · exact greedy_snd_total g1 s1 (run_clean cx m hcl []) (by rw [runs_isEmpty]; simpa using hne) (runs_total cx cs false htot [] (fun _ => rfl)) s2 hlh
      · exact greedy_snd_exact g1 s1 s2
  | .lazy m lo hi cs, ib, z, h, hs, hsl, hC, inj, hinj, hib => by
    simp only [safe, Bool.and_eq_true] at h
    simp only [snd, Bool.and_eq_true, decide_eq_true_eq] at hs
    simp only [slots, List.mem_append] at hsl
    simp only [capsOf, List.mem_append] at hC
    obtain ⟨g1, s1⟩ := run_snd hnul m false false h.1 hs.1.1.1 (fun i hi => hsl i (Or.inl hi)) (fun x hx => hC x (Or.inl hx)) [] (by simp) (by simp)
    obtain ⟨g2, s2⟩ := dfs_snd cs [] (fun c hc inj' hi' => runs_snd hnul cs false false h.2 hs.1.1.2 (fun i hi => hsl i (Or.inr hi))
      (fun x hx => hC x (Or.inr hx)) c hc inj' (by rcases hi' with rfl | rfl <;> simp) (fun _ => by rcases hi' with h | h <;> exact h))
      (cleans_dropLast hs.1.2)
    simp only [run, toRx]
    exact ⟨lazy_good g1 g2 (fun k hk => (hinj k hk).1), lazy_snd g1 s1 g2 s2 (clean_dfs _ [] (runs_clean cx cs hs.1.2)) (fun k hk => (hinj k hk).1) hs.2⟩
  | .possessive m lo hi cs, ib, z, h, hs, hsl, hC, inj, hinj, hib => by
    simp only [safe, Bool.and_eq_true] at h
    simp only [snd, Bool.and_eq_true, decide_eq_true_eq] at hs
    simp only [slots, List.mem_append] at hsl
    simp only [capsOf, List.mem_append] at hC
    obtain ⟨g1, s1⟩ := run_snd hnul m ib false h.1 hs.1.1.1 (fun i hi => hsl i (Or.inl hi)) (fun x hx => hC x (Or.inl hx)) inj hinj hib
    obtain ⟨g2, s2⟩ := dfs_snd cs [] (fun c hc inj' hi' => runs_snd hnul cs false false h.2 hs.1.1.2 (fun i hi => hsl i (Or.inr hi))
      (fun x hx => hC x (Or.inr hx)) c hc inj' (by rcases hi' with rfl | rfl <;> simp) (fun _ => by rcases hi' with h | h <;> exact h)) hs.1.2
    simp only [run, toRx]
    exact ⟨possessive_good g1 g2, possessive_snd g1 s1 s2 hs.2⟩
  | .repeated m n cs, ib, z, h, hs, hsl, hC, inj, hinj, hib => by
    simp only [safe, Bool.and_eq_true] at h
    simp only [snd, Bool.and_eq_true] at hs
    simp only [slots, List.mem_append] at hsl
    simp only [capsOf, List.mem_append] at hC
    obtain ⟨g1, s1⟩ := run_snd hnul m false false h.1 hs.1.1 (fun i hi => hsl i (Or.inl hi)) (fun x hx => hC x (Or.inl hx)) [] (by simp) (by simp)
    obtain ⟨g2, s2⟩ := dfs_snd cs [] (fun c hc inj' hi' => runs_snd hnul cs false false h.2 hs.1.2 (fun i hi => hsl i (Or.inr hi))
      (fun x hx => hC x (Or.inr hx)) c hc inj' (by rcases hi' with rfl | rfl <;> simp) (fun _ => by rcases hi' with h | h <;> exact h)) hs.2
    simp only [run, toRx]
    exact ⟨repeated_good g1 g2, repeated_snd g1 s1 s2⟩
  | .group m idx cs, ib, z, h, hs, hsl, hC, inj, hinj, hib => by
    simp only [safe, Bool.and_eq_true] at h
    simp only [snd, Bool.and_eq_true] at hs
    simp only [slots, List.mem_cons, List.mem_append] at hsl
    simp only [capsOf, List.mem_cons, List.mem_append] at hC
    have hcs : ∀ c ∈ cs, ∀ inj' : List K, (∀ k ∈ inj', Inj cx P k) →
        GoodK cx P (run cx c inj') ∧ Snd cx P (toRx c) false (run cx c inj') := fun c hc inj' hi' =>
      runs_snd hnul cs true false h.2 hs.1.2 (fun i hi => hsl i (Or.inr (Or.inr hi)))
        (fun x hx => hC x (Or.inr (Or.inr hx))) c hc inj' hi' (by simp)
    have hown : ∀ k ∈ (runs cx cs).map (fun c => c []), Inj cx P k := by
      intro k hk
      rw [runs_eq_map, List.map_map, List.mem_map] at hk
      obtain ⟨c, hc, rfl⟩ := hk
      exact ⟨(hcs c hc [] (by simp)).1, rest_run cx c [] (by simp)⟩
    obtain ⟨g1, s1⟩ := run_snd hnul m (!cs.isEmpty) false h.1 hs.1.1 (fun i hi => hsl i (Or.inr (Or.inl hi)))
      (fun x hx => hC x (Or.inr (Or.inl hx))) ((runs cx cs).map (fun c => c [])) hown
      (by intro hb; simp only [Bool.not_eq_false', List.isEmpty_iff] at hb; subst hb; simp [runs])
    have hall : ∀ k ∈ (runs cx cs).map (fun c => c []) ++ inj, Inj cx P k := by
      intro k hk
      rcases List.mem_append.1 hk with hk | hk
      · exact hown k hk
      · exact hinj k hk
    obtain ⟨g2, s2⟩ := dfs_snd cs ((runs cx cs).map (fun c => c []) ++ inj) (fun c hc inj' hi' => hcs c hc inj'
      (by rcases hi' with rfl | rfl; exact hall; simp)) hs.2
    have hCw : ∀ st st', Good cx P st → run cx m ((runs cx cs).map (fun c => c [])) st = some st' → st'.accepted = true →
        P.C idx st.pos st'.pos := by
      intro st st' hg e ha
      have g' := g1.get hg e
      refine hC (idx, m) (Or.inl rfl) st.pos st'.pos (by have := hg.nat; omega) (by have := g'.nat; omega) ?_
      exact s1 st st' hg (by simp) e ha
    simp only [run, toRx]
    exact ⟨group_good (hsl idx (Or.inl rfl)) g1 g2 hCw, group_snd (hsl idx (Or.inl rfl)) g1 s1 hCw s2⟩
theorem runs_snd {cx : Ctx} {P : Par} {nul : Bool} (hnul : nul = true → cx.post.head? = some 0) :
    ∀ (cs : List Node) (ib z : Bool), safes nul cs = true → snds ib z cs = true → (∀ i ∈ slotss cs, i < P.n) →
    (∀ x ∈ capsOfs cs, ∀ a b : Int, 0 ≤ a → 0 ≤ b → Den cx.query (toRx x.2) a.toNat b.toNat → P.C x.1 a b) → ∀ c ∈ cs, ∀ inj,
    (∀ k ∈ inj, Inj cx P k) → (ib = false → inj = []) → GoodK cx P (run cx c inj) ∧ Snd cx P (toRx c) z (run cx c inj)
  | [], _, _, _, _, _, _, c, hc, _, _, _ => absurd hc (by simp)
  | d :: ds, ib, z, h, hs, hsl, hC, c, hc, inj, hinj, hib => by
    simp only [safes, Bool.and_eq_true] at h
    simp only [snds, Bool.and_eq_true] at hs
    simp only [slotss, List.mem_append] at hsl
    simp only [capsOfs, List.mem_append] at hC
    by_cases hcd : c = d
    · rw [hcd]
      exact run_snd hnul d ib z h.1 hs.1 (fun i hi => hsl i (Or.inl hi)) (fun x hx => hC x (Or.inl hx)) inj hinj hib
    · exact runs_snd hnul ds ib z h.2 hs.2 (fun i hi => hsl i (Or.inr hi)) (fun x hx => hC x (Or.inr hx)) c
        (by rcases List.mem_cons.1 hc with h | h; exact absurd h hcd; exact h) inj hinj hib
end

end ERegex

import Verif.Proofs.Denote
import Verif.Proofs.Sound
import Verif.Props.Search
import Verif.Conformance
import Verif.Props.Parse
/-!
# C22–C25, C37 : how many repetitions are taken, which alternative is taken

The theorems are about one node of the tree inside an arbitrary match attempt: any memory `cx`, any state `st` (position,
captures, start), any list `inj` of functions injected by an enclosing group.  `cs` are the alternatives that follow the
repetition in the pattern; "the rest of the pattern" is the tree `.alt cs`.  `ClassOf m p` : the regular expression denoted by
the tree `m` is the character class `p` (`Spec.Den`).
-/
set_option autoImplicit false
namespace ERegex.Props
open ERegex ERegex.Spec

/-- The rest of the pattern (alternatives `cs`), started at offset `x`, is accepted and ends at offset `y`. -/
def RestEnds (cx : Ctx) (cs : List Node) (st : St) (x : Nat) (y : Int) : Prop :=
  ∃ r, run cx (.alt cs) [] { st with pos := x, accepted := true } = some r ∧ r.accepted = true ∧ r.pos = y

/-- The rest of the pattern, started at offset `x`, is rejected. -/
def RestFails (cx : Ctx) (cs : List Node) (st : St) (x : Nat) : Prop :=
  ∃ r, run cx (.alt cs) [] { st with pos := x, accepted := true } = some r ∧ r.accepted = false

theorem restEnds_iff {cx : Ctx} {cs : List Node} {st : St} {x : Nat} {y : Int} :
    verdict (dfs (runs cx cs) []) st (x : Int) = some (true, y) ↔ RestEnds cx cs st x y := by
  constructor
  · intro h
    obtain ⟨r, h1, h2, h3⟩ := verdict_some h
    exact ⟨r, by simpa [run] using h1, h2, h3⟩
  · rintro ⟨r, h1, h2, h3⟩
    have h1' : dfs (runs cx cs) [] { st with pos := (x : Int), accepted := true } = some r := by simpa [run] using h1
    unfold verdict
    rw [h1']; simp [h2, h3]

theorem restFails_of {cx : Ctx} {cs : List Node} {st : St} {x : Nat} {y : Int}
    (h : verdict (dfs (runs cx cs) []) st (x : Int) = some (false, y)) : RestFails cx cs st x := by
  obtain ⟨r, h1, h2, _⟩ := verdict_some h
  exact ⟨r, by simpa [run] using h1, h2⟩

theorem verdict_bool {cx : Ctx} {cs : List Node} {st : St} {x : Nat} {b : Bool} {y : Int}
    (h : verdict (dfs (runs cx cs) []) st (x : Int) = some (b, y)) :
    (b = true → RestEnds cx cs st x y) ∧ (b = false → RestFails cx cs st x) :=
  ⟨fun hb => restEnds_iff.1 (by rw [h, hb]), fun hb => restFails_of (by rw [h, hb])⟩

theorem single_oneCh {m : Node} (h : single m = true) : oneCh m = true := by simp [oneCh, h]

/-- Numbers of repetitions that the bounds, the text and the rest of the pattern allow. -/
def Admits (cx : Ctx) (p : Int → Bool) (lo hi : Nat) (cs : List Node) (st : St) (i n : Nat) : Prop :=
  lo ≤ n ∧ n ≤ hi ∧ InClass cx.query p i n ∧ ∃ y, RestEnds cx cs st (i + n) y

/-! ## C22 -/

/-- **C22 (partial).** A greedy repetition (bounds `lo ≤ hi`) of a single-character class `p` followed by a rest whose
alternatives restore their position when they fail: if it succeeds, it has taken the largest number of repetitions admitted by
the bounds, the text and the rest, and ends where the rest ends after them; if it fails, the rest was rejected after every
number of repetitions that the bounds and the text allow.  Missing: `X?` (below), `\s`, `[^…]` and longer repeated parts, and
rests that move when they fail, for which the claim is false of the code. -/
theorem C22_greedy_takes_most_partial (cx : Ctx) (m : Node) (p : Int → Bool) (lo hi : Nat) (cs : List Node) (inj : List K)
    (st st' : St) (i : Nat) (hp : ClassOf m p) (hm : single m = true) (hlh : lo ≤ hi) (hq : ¬ (lo = 0 ∧ hi = 1)) (hne : cs ≠ [])
    (hcl : cleans cs = true) (hi' : st.pos = i) (e : run cx (.greedy m lo hi cs) inj st = some st') :
    (st'.accepted = true → ∃ n, Largest (Admits cx p lo hi cs st i) n ∧ RestEnds cx cs st (i + n) st'.pos) ∧
    (st'.accepted = false → ∀ n, lo ≤ n → n ≤ hi → InClass cx.query p i n → RestFails cx cs st (i + n)) := by
  have hpt : p = testOf m := classOf_unique hp (classOf_oneCh (single_oneCh hm))
  subst hpt
  have ho : optPath m lo hi = false := by
    cases h : optPath m lo hi with
    | false => rfl
    | true => exact absurd ⟨((optPath_iff _ _ _).1 h).1, ((optPath_iff _ _ _).1 h).2.1⟩ hq
  have e1 : run cx m [] = charStep cx (testOf m) := funext (run_single cx m hm [])
  rw [run_greedy_loop cx cs ho, e1] at e
  have hne' : (runs cx cs).isEmpty = false := by rw [runs_isEmpty]; simpa using hne
  obtain ⟨h1, h2⟩ := greedy_largest hne' (rest_dfs cx cs [] (by simp)) (clean_dfs _ _ (runs_clean cx cs hcl)) hlh hi' e
  have key : ∀ n, Works cx (testOf m) lo hi (dfs (runs cx cs) []) st i n ↔ Admits cx (testOf m) lo hi cs st i n := by
    intro n
    unfold Works Admits
    simp only [restEnds_iff]
  refine ⟨fun ha => ?_, fun ha n hn1 hn2 hn3 => ?_⟩
  · obtain ⟨n, ⟨hn1, hn2⟩, hn3⟩ := h1 ha
    exact ⟨n, ⟨(key n).1 hn1, fun k hk => hn2 k ((key k).2 hk)⟩, restEnds_iff.1 hn3⟩
  · obtain ⟨y, hy⟩ := h2 ha n hn1 hn2 hn3
    exact restFails_of hy

/-- **C22 (partial).** With nothing behind it (no continuation, no injected function) a greedy repetition of a class takes the
longest run of class characters within the bounds, and fails exactly if there are fewer than `lo`. -/
theorem C22_greedy_alone_partial (cx : Ctx) (m : Node) (p : Int → Bool) (lo hi : Nat) (st st' : St) (i : Nat) (hp : ClassOf m p)
    (hm : single m = true) (hlh : lo ≤ hi) (hq : ¬ (lo = 0 ∧ hi = 1)) (hi' : st.pos = i)
    (e : run cx (.greedy m lo hi []) [] st = some st') :
    (InClass cx.query p i lo → st'.accepted = true ∧
      ∃ n, Largest (fun n => n ≤ hi ∧ InClass cx.query p i n) n ∧ st'.pos = (i + n : Nat)) ∧
    (¬ InClass cx.query p i lo → st'.accepted = false) := by
  have hpt : p = testOf m := classOf_unique hp (classOf_oneCh (single_oneCh hm))
  subst hpt
  have ho : optPath m lo hi = false := by
    cases h : optPath m lo hi with
    | false => rfl
    | true => exact absurd ⟨((optPath_iff _ _ _).1 h).1, ((optPath_iff _ _ _).1 h).2.1⟩ hq
  have e1 : run cx m [] = charStep cx (testOf m) := funext (run_single cx m hm [])
  rw [run_greedy_loop cx [] ho, e1] at e
  simp only [runs] at e
  have hbt : ∀ x : Int, verdict (greedyBacktrack [] []) st x = some (true, x) := by
    intro x; simp [verdict, greedyBacktrack, dfsInj, dfs]
  have hclean : Clean (greedyBacktrack [] []) := by
    intro a b _ h _; simp [greedyBacktrack, dfsInj, dfs] at h; rw [← h]
  have hb : Rest (greedyBacktrack [] []) := by simpa [runs] using rest_backtrack cx [] [] (by simp)
  have hd : Rest (dfs ([] : List M) []) := by simpa [runs] using rest_dfs cx [] [] (by simp)
  rcases greedy_char hb hclean hd hlh hi' e with ⟨h1, h2⟩ | ⟨k, k1, k2, k3, k4, hk⟩
  · exact ⟨fun h => absurd h h1, fun _ => h2⟩
  · refine ⟨fun _ => ?_, fun h => absurd (inClass_mono k3 k1) h⟩
    have hl : Largest (fun n => n ≤ hi ∧ InClass cx.query (testOf m) i n) k := by
      refine ⟨⟨k2, k3⟩, fun n hn => ?_⟩
      by_cases hnk : n ≤ k
      · exact hnk
      · exact absurd (inClass_mono hn.2 (by omega)) (k4 (by omega))
    rcases hk with ⟨d, d1, d2, d3, d4, d5⟩ | ⟨hv, hr⟩
    · have : d = k := by
        by_cases hdk : d = k
        · exact hdk
        · obtain ⟨y, hy⟩ := d5 k (by omega) (by omega)
          rw [hbt] at hy; simp at hy
      subst this
      rw [hbt] at d3
      simp at d3
      exact ⟨d4, d, hl, by rw [← d3]; simp⟩
    · have : k = lo := by
        by_cases hkl : k = lo
        · exact hkl
        · obtain ⟨y, hy⟩ := hr k (by omega) (by omega)
          rw [hbt] at hy; simp at hy
      subst this
      have : verdict (dfs [] []) st ((i + k : Nat) : Int) = some (true, ((i + k : Nat) : Int)) := by simp [verdict, dfs]
      rw [this] at hv
      simp at hv
      exact ⟨hv.1, k, hl, by rw [← hv.2]; simp⟩

/-- Inside a group the alternatives behind it are injected: the repetition looks ahead with them. -/
theorem dfsInj_own (fs : List M) : dfsInj (fs.map (fun c => c [])) = dfs fs [] := by
  unfold dfsInj
  rw [List.map_map]
  induction fs with
  | nil => rfl
  | cons f fs ih =>
    funext st
    cases fs with
    | nil => simp [dfs]
    | cons g gs =>
      simp only [List.map_cons, dfs, Function.comp] at ih ⊢
      rw [ih]

/-- Backtracking of a captured repetition: the rest of the pattern is tried at `x` and the position is put back. -/
theorem verdict_own {cx : Ctx} {cs : List Node} {st : St} {x : Nat} {f : Bool} {y : Int}
    (h : verdict (greedyBacktrack [] ((runs cx cs).map (fun c => c []))) st (x : Int) = some (f, y)) :
    y = x ∧ (f = true → ∃ z, RestEnds cx cs st x z) ∧ (f = false → RestFails cx cs st x) := by
  obtain ⟨r, h1, h2, h3⟩ := verdict_some h
  simp only [greedyBacktrack, List.isEmpty_nil, if_true, dfsInj_own] at h1
  split at h1
  · simp at h1
  · rename_i r' hr'
    simp only [Option.some.injEq] at h1
    subst h1
    refine ⟨h3.symm, fun hf => ⟨r'.pos, r', by simpa [run] using hr', by simpa [hf] using h2, rfl⟩,
      fun hf => ⟨r', by simpa [run] using hr', by simpa [hf] using h2⟩⟩

/-- **C22 (partial).** `(X*)rest`: a captured greedy repetition of a class, followed by anything, captures the largest number of
characters (within the bounds, more than the minimum) after which the rest, tried there, is accepted; if the rest is rejected
after all of them it captures the minimum; the rest then runs behind the captured text. -/
theorem C22_greedy_in_group_partial (cx : Ctx) (m : Node) (p : Int → Bool) (lo hi idx : Nat) (cs : List Node) (inj : List K)
    (st st' : St) (i : Nat) (hp : ClassOf m p) (hm : single m = true) (hlh : lo ≤ hi) (hq : ¬ (lo = 0 ∧ hi = 1))
    (hi' : st.pos = i) (hlo : InClass cx.query p i lo)
    (e : run cx (.group (.greedy m lo hi []) idx cs) inj st = some st') :
    ∃ (n : Nat) (st1 : St), st1.pos = ((i + n : Nat) : Int) ∧ st1.groups[idx]? = some (some ((i : Int), ((i + n : Nat) : Int))) ∧ st1.accepted = true ∧
      run cx (.alt cs) ((runs cx cs).map (fun c => c []) ++ inj) st1 = some st' ∧ InClass cx.query p i n ∧
      (Largest (Admits cx p lo hi cs st i) n ∨
        (n = lo ∧ ∀ k, lo < k → k ≤ hi → InClass cx.query p i k → RestFails cx cs st (i + k))) := by
  have hpt : p = testOf m := classOf_unique hp (classOf_oneCh (single_oneCh hm))
  subst hpt
  have ho : optPath m lo hi = false := by
    cases h : optPath m lo hi with
    | false => rfl
    | true => exact absurd ⟨((optPath_iff _ _ _).1 h).1, ((optPath_iff _ _ _).1 h).2.1⟩ hq
  have e1 : run cx m [] = charStep cx (testOf m) := funext (run_single cx m hm [])
  generalize hown : (runs cx cs).map (fun c => c []) = own at *
  have hrest : ∀ k ∈ own, Rest k := by
    intro k hk
    rw [← hown, List.mem_map] at hk
    obtain ⟨f, hf, rfl⟩ := hk
    rw [runs_eq_map, List.mem_map] at hf
    obtain ⟨c, _, rfl⟩ := hf
    exact rest_run cx c [] (by simp)
  have hclean : Clean (greedyBacktrack [] own) := by
    intro a b _ h _
    simp only [greedyBacktrack, List.isEmpty_nil, if_true] at h
    split at h
    · simp at h
    · simp only [Option.some.injEq] at h; rw [← h]
  simp only [run, groupMatch, hown] at e
  change (match run cx (.greedy m lo hi []) own st with | none => none | some r => _) = _ at e
  rw [run_greedy_loop cx [] ho, e1] at e
  simp only [runs] at e
  cases hg : greedyMatch (charStep cx (testOf m)) lo hi [] own st with
  | none => rw [hg] at e; simp at e
  | some r =>
    rw [hg] at e
    simp only at e
    have key : r.accepted = true ∧ ∃ n, r.pos = (i + n : Nat) ∧ InClass cx.query (testOf m) i n ∧
        (Largest (Admits cx (testOf m) lo hi cs st i) n ∨
        (n = lo ∧ ∀ k, lo < k → k ≤ hi → InClass cx.query (testOf m) i k → RestFails cx cs st (i + k))) := by
      have hb : Rest (greedyBacktrack [] own) := by simpa [runs] using rest_backtrack cx [] own hrest
      have hd : Rest (dfs ([] : List M) []) := by simpa [runs] using rest_dfs cx [] [] (by simp)
      rcases greedy_char hb hclean hd hlh hi' hg with ⟨h1, _⟩ | ⟨k, k1, k2, k3, k4, hk⟩
      · exact absurd hlo h1
      · have hmax : ∀ n, n ≤ hi → InClass cx.query (testOf m) i n → n ≤ k := by
          intro n h1 h2
          by_cases hnk : n ≤ k
          · exact hnk
          · exact absurd (inClass_mono h2 (by omega)) (k4 (by omega))
        rcases hk with ⟨d, d1, d2, d3, d4, d5⟩ | ⟨hv, hr⟩
        · rw [← hown] at d3
          obtain ⟨hy, hz, _⟩ := verdict_own d3
          refine ⟨d4, d, hy, inClass_mono k3 d2, Or.inl ⟨⟨by omega, by omega, inClass_mono k3 d2, hz rfl⟩, ?_⟩⟩
          rintro n ⟨n1, n2, n3, z, hz'⟩
          by_cases hnd : n ≤ d
          · exact hnd
          · obtain ⟨y, hy'⟩ := d5 n (by omega) (hmax n n2 n3)
            rw [← hown] at hy'
            obtain ⟨r1, r2, r3⟩ := (verdict_own hy').2.2 rfl
            obtain ⟨r4, r5, r6, _⟩ := hz'
            rw [r2] at r5
            simp only [Option.some.injEq] at r5
            rw [r5, r6] at r3; simp at r3
        · have : verdict (dfs [] []) st ((i + lo : Nat) : Int) = some (true, ((i + lo : Nat) : Int)) := by simp [verdict, dfs]
          rw [this] at hv
          simp only [Option.some.injEq, Prod.mk.injEq] at hv
          refine ⟨hv.1.symm, lo, hv.2.symm, hlo, Or.inr ⟨rfl, fun n h1 h2 h3 => ?_⟩⟩
          obtain ⟨y, hy'⟩ := hr n h1 (hmax n h2 h3)
          rw [← hown] at hy'
          exact (verdict_own hy').2.2 rfl
    obtain ⟨ha, n, n1, n2, n3⟩ := key
    rw [ha] at e
    simp only [if_true] at e
    split at e
    · rename_i hidx
      refine ⟨n, _, ?_, ?_, ?_, by simpa [run] using e, n2, n3⟩
      · exact n1
      · simp [hidx, n1, hi']
      · rfl
    · simp at e

theorem verdict_flag {b : K} {st r : St} {x : Int} (hf : FlagFree b) {f : Bool} (e : b { st with pos := x, accepted := f } = some r) :
    verdict b st x = some (r.accepted, r.pos) := by
  have := hf { st with pos := x, accepted := f } true
  rw [e] at this
  unfold verdict
  simp only at this
  rw [this]; rfl

theorem rest_flag {b : K} (hb : Rest b) (hf : FlagFree b) {st a r : St} {x : Int} (h1 : a.start = st.start)
    (h2 : a.groups.length = st.groups.length) (hx : a.pos = x) (e : b a = some r) : verdict b st x = some (r.accepted, r.pos) := by
  rw [verdict_congr hb h1.symm h2.symm x]
  refine verdict_flag hf (f := a.accepted) ?_
  rw [← hx]; exact e

/-- **C22 (partial).** `X?` followed by a rest whose alternatives restore their position and do not read the flag: if the attempt
began at this very position, or the next character is in the class, `X?` takes the character whenever the rest is accepted
behind it, otherwise it takes none; and it fails only if the rest is rejected in both places.  Without that hypothesis the claim
is false (`C22_refuted_optional`). -/
theorem C22_optional_partial (cx : Ctx) (m : Node) (p : Int → Bool) (cs : List Node) (inj : List K) (st st' : St) (i : Nat)
    (hp : ClassOf m p) (hm : single m = true) (hne : cs ≠ []) (hcl : cleans cs = true) (hff : flagFreeHead cs = true)
    (hi' : st.pos = i) (hs : st.start ≤ i) (hat : st.start = i ∨ InClass cx.query p i 1)
    (e : run cx (.greedy m 0 1 cs) inj st = some st') :
    (st'.accepted = true → ∃ n, Largest (Admits cx p 0 1 cs st i) n ∧ RestEnds cx cs st (i + n) st'.pos) ∧
    (st'.accepted = false → ∀ n, n ≤ 1 → InClass cx.query p i n → RestFails cx cs st (i + n)) := by
  have hpt : p = testOf m := classOf_unique hp (classOf_oneCh (single_oneCh hm))
  subst hpt
  have e1 : run cx m [] = charStep cx (testOf m) := funext (run_single cx m hm [])
  have hne' : (runs cx cs).isEmpty = false := by rw [runs_isEmpty]; simpa using hne
  have hR := rest_dfs cx cs [] (by simp)
  have hC := clean_dfs _ [] (runs_clean cx cs hcl)
  have hF := runs_flagFree cx cs hff []
  have hmin : minSize m = 1 := single_sizes.1 m hm
  have fails : ∀ {x : Nat} {y : Int}, RestFails cx cs st x → RestEnds cx cs st x y → False := by
    rintro x y ⟨r1, a1, a2⟩ ⟨r2, b1, b2, _⟩
    rw [a1] at b1; simp only [Option.some.injEq] at b1; rw [← b1, a2] at b2; simp at b2
  have hbt : greedyBacktrack (runs cx cs) inj = dfs (runs cx cs) [] := by
    funext a; simp [greedyBacktrack, hne']
  cases ho : optPath m 0 1 with
  | false =>
    rw [run_greedy_loop cx cs ho, e1] at e
    obtain ⟨h1, h2⟩ := greedy_largest hne' hR hC (by omega) hi' e
    have key : ∀ n, Works cx (testOf m) 0 1 (dfs (runs cx cs) []) st i n ↔ Admits cx (testOf m) 0 1 cs st i n := by
      intro n
      unfold Works Admits
      simp only [restEnds_iff]
    refine ⟨fun ha => ?_, fun ha n hn2 hn3 => ?_⟩
    · obtain ⟨n, ⟨hn1, hn2⟩, hn3⟩ := h1 ha
      exact ⟨n, ⟨(key n).1 hn1, fun k hk => hn2 k ((key k).2 hk)⟩, restEnds_iff.1 hn3⟩
    · obtain ⟨y, hy⟩ := h2 ha n (by omega) hn2 hn3
      exact restFails_of hy
  | true =>
    rw [run_greedy_opt cx cs ho, e1, hmin] at e
    simp only [optionalMatch, hbt] at e
    by_cases hin : InClass cx.query (testOf m) i 1
    · rw [step_yes hi' hin] at e
      simp only at e
      cases hd : dfs (runs cx cs) [] { st with pos := ((i + 1 : Nat) : Int), accepted := true } with
      | none => rw [hd] at e; simp at e
      | some r =>
        rw [hd] at e
        simp only at e
        have hst := hR.start _ _ hd
        have hv := restEnds_iff (cx := cx) (cs := cs) (st := st) (x := i + 1) (y := r.pos)
        have hv1 : verdict (dfs (runs cx cs) []) st ((i + 1 : Nat) : Int) = some (r.accepted, r.pos) := verdict_flag hF hd
        by_cases hra : r.accepted = true
        · rw [hra] at e hv1
          simp only [Bool.not_true, Bool.false_and, Bool.false_eq_true, if_false, Option.some.injEq] at e
          subst e
          refine ⟨fun _ => ⟨1, ⟨⟨by omega, by omega, hin, r.pos, hv.1 hv1⟩, ?_⟩, hv.1 hv1⟩, fun h => by rw [hra] at h; simp at h⟩
          rintro k ⟨_, h, _⟩; exact h
        · simp only [Bool.not_eq_true] at hra
          have hrp : r.pos = ((i + 1 : Nat) : Int) := hC _ _ (by simp; omega) hd hra
          have hgt : r.pos > r.start := by rw [hst.1, hrp]; simp only; omega
          rw [hra] at e hv1
          simp only [Bool.not_false, Bool.true_and, decide_eq_true_eq, hgt, if_true] at e
          have hv2 := rest_flag (x := (i : Int)) hR hF (st := st) (a := { r with pos := r.pos - (1 : Nat), accepted := false }) hst.1 hst.2
            (by simp [hrp]) e
          have hf1 : RestFails cx cs st (i + 1) := restFails_of hv1
          refine ⟨fun ha => ?_, fun ha n hn _ => ?_⟩
          · rw [ha] at hv2
            have : RestEnds cx cs st (i + 0) st'.pos := restEnds_iff.1 hv2
            refine ⟨0, ⟨⟨by omega, by omega, inClass_zero _ _ _, _, this⟩, ?_⟩, this⟩
            rintro k ⟨_, h, _, z, hz⟩
            rcases (by omega : k = 0 ∨ k = 1) with rfl | rfl
            · omega
            · exact absurd hz (fun h => fails hf1 h)
          · rw [ha] at hv2
            rcases (by omega : n = 0 ∨ n = 1) with rfl | rfl
            · exact restFails_of hv2
            · exact hf1
    · have hsi : st.start = i := by rcases hat with h | h; exact h; exact absurd h hin
      rw [step_no hi' hin] at e
      simp only at e
      cases hd : dfs (runs cx cs) [] { st with accepted := false } with
      | none => rw [hd] at e; simp at e
      | some r =>
        rw [hd] at e
        simp only at e
        have hv1 : verdict (dfs (runs cx cs) []) st ((i : Nat) : Int) = some (r.accepted, r.pos) :=
          rest_flag hR hF (a := { st with accepted := false }) rfl rfl hi' hd
        have hst := hR.start _ _ hd
        have hcond : (!r.accepted && decide (r.pos > r.start)) = false := by
          by_cases hra : r.accepted = true
          · simp [hra]
          · simp only [Bool.not_eq_true] at hra
            have hrp := hC _ _ (by simp [hi']) hd hra
            simp only [hra, Bool.not_false, Bool.true_and, decide_eq_false_iff_not]
            rw [hst.1, hrp]; simp only; omega
        rw [hcond] at e
        simp only [Bool.false_eq_true, if_false, Option.some.injEq] at e
        subst e
        refine ⟨fun ha => ?_, fun ha n hn hn2 => ?_⟩
        · rw [ha] at hv1
          have : RestEnds cx cs st (i + 0) r.pos := restEnds_iff.1 hv1
          refine ⟨0, ⟨⟨by omega, by omega, inClass_zero _ _ _, _, this⟩, ?_⟩, this⟩
          rintro k ⟨_, h, h2, _⟩
          rcases (by omega : k = 0 ∨ k = 1) with rfl | rfl
          · omega
          · exact absurd h2 hin
        · rw [ha] at hv1
          rcases (by omega : n = 0 ∨ n = 1) with rfl | rfl
          · exact restFails_of hv1
          · exact absurd hn2 hin

/-! ## C23 -/

/-- **C23 (partial).** A lazy repetition of a single-character class (any class of the library, `\\s` and `[^…]` included)
followed by a rest whose alternatives restore their position when they fail: if it succeeds it has taken the smallest number of
repetitions admitted by the bounds, the text and the rest; if it fails, no admitted number of repetitions works.  (Entered with
the accepted flag set, or with a positive minimum, or in front of a rest that does not read the flag.) -/
theorem C23_lazy_takes_least_partial (cx : Ctx) (m : Node) (p : Int → Bool) (lo hi : Nat) (cs : List Node) (inj : List K)
    (st st' : St) (i : Nat) (hp : ClassOf m p) (hm : oneCh m = true) (hlh : lo ≤ hi) (hne : cs ≠ []) (hcl : cleans cs = true)
    (hf : st.accepted = true ∨ 0 < lo ∨ flagFreeHead cs = true) (hi' : st.pos = i) (hl : i ≤ cx.query.length)
    (e : run cx (.lazy m lo hi cs) inj st = some st') :
    (st'.accepted = true → ∃ n, Smallest (Admits cx p lo hi cs st i) n ∧ RestEnds cx cs st (i + n) st'.pos) ∧
    (st'.accepted = false → ∀ n, lo ≤ n → n ≤ hi → InClass cx.query p i n → RestFails cx cs st (i + n)) := by
  have hpt : p = testOf m := classOf_unique hp (classOf_oneCh hm)
  subst hpt
  simp only [run] at e
  have hne' : (runs cx cs).isEmpty = false := by rw [runs_isEmpty]; simpa using hne
  have hf' : st.accepted = true ∨ 0 < lo ∨ FlagFree (dfs (runs cx cs) []) := by
    rcases hf with h | h | h
    · exact Or.inl h
    · exact Or.inr (Or.inl h)
    · exact Or.inr (Or.inr (runs_flagFree cx cs h []))
  obtain ⟨h1, h2⟩ := lazy_smallest (stepSpec_run cx m hm []) hne' (rest_dfs cx cs [] (by simp))
    (clean_dfs _ _ (runs_clean cx cs hcl)) hlh hi' hl hf' e
  have key : ∀ n, Works cx (testOf m) lo hi (dfs (runs cx cs) []) st i n ↔ Admits cx (testOf m) lo hi cs st i n := by
    intro n
    unfold Works Admits
    simp only [restEnds_iff]
  refine ⟨fun ha => ?_, fun ha n hn1 hn2 hn3 => ?_⟩
  · obtain ⟨n, ⟨hn1, hn2⟩, hn3⟩ := h1 ha
    exact ⟨n, ⟨(key n).1 hn1, fun k hk => hn2 k ((key k).2 hk)⟩, restEnds_iff.1 hn3⟩
  · obtain ⟨y, hy⟩ := h2 ha n hn1 hn2 hn3
    exact restFails_of hy

/-! ## C24 -/

/-- **C24.** A possessive repetition of a single-character class (any class of the library) takes the largest number of
characters available within the bounds, then the rest is tried once, there, and its verdict is final; if fewer than `lo`
characters are available it fails. -/
theorem C24_possessive (cx : Ctx) (m : Node) (p : Int → Bool) (lo hi : Nat) (cs : List Node) (inj : List K)
    (st st' : St) (i : Nat) (hp : ClassOf m p) (hm : oneCh m = true) (hlh : lo ≤ hi) (hf : st.accepted = true ∨ 0 < hi)
    (hi' : st.pos = i) (e : run cx (.possessive m lo hi cs) inj st = some st') :
    (InClass cx.query p i lo → ∃ n, Largest (fun n => n ≤ hi ∧ InClass cx.query p i n) n ∧ lo ≤ n ∧
      (st'.accepted = true → RestEnds cx cs st (i + n) st'.pos) ∧ (st'.accepted = false → RestFails cx cs st (i + n))) ∧
    (¬ InClass cx.query p i lo → st'.accepted = false) := by
  have hpt : p = testOf m := classOf_unique hp (classOf_oneCh hm)
  subst hpt
  simp only [run] at e
  obtain ⟨h1, h2⟩ := possessive_char (stepSpec_run cx m hm inj) (rest_dfs cx cs [] (by simp)) hlh hi' hf e
  refine ⟨fun h => ?_, h2⟩
  obtain ⟨n, n1, n2, n3⟩ := h1 h
  exact ⟨n, n1, n2, (verdict_bool n3).1, (verdict_bool n3).2⟩

/-! ## C25 -/

/-- **C25.** `X{n}` for a single-character class (any class of the library) consumes exactly `n` characters of the class
and then the rest decides; it fails if the next `n` characters are not all in the class. -/
theorem C25_exact (cx : Ctx) (m : Node) (p : Int → Bool) (n : Nat) (cs : List Node) (inj : List K)
    (st st' : St) (i : Nat) (hp : ClassOf m p) (hm : oneCh m = true) (hf : st.accepted = true ∨ 0 < n)
    (hi' : st.pos = i) (e : run cx (.repeated m n cs) inj st = some st') :
    (InClass cx.query p i n →
      (st'.accepted = true → RestEnds cx cs st (i + n) st'.pos) ∧ (st'.accepted = false → RestFails cx cs st (i + n))) ∧
    (¬ InClass cx.query p i n → st'.accepted = false) := by
  have hpt : p = testOf m := classOf_unique hp (classOf_oneCh hm)
  subst hpt
  simp only [run] at e
  obtain ⟨h1, h2⟩ := repeated_char (stepSpec_run cx m hm []) (rest_dfs cx cs [] (by simp)) hi' hf e
  exact ⟨fun h => verdict_bool (h1 h), h2⟩

/-! ## C37 -/

/-- The alternative `c`, tried alone from `st`, is accepted and ends at `y`. -/
def AltEnds (cx : Ctx) (c : Node) (st : St) (y : Int) : Prop :=
  ∃ r, run cx c [] { st with accepted := true } = some r ∧ r.accepted = true ∧ r.pos = y
/-- The alternative `c`, tried alone from `st`, is rejected. -/
def AltFails (cx : Ctx) (c : Node) (st : St) : Prop :=
  ∃ r, run cx c [] { st with accepted := true } = some r ∧ r.accepted = false

theorem alt_in_order (cx : Ctx) (s0 : St) : ∀ (cs : List Node) (st st' : St), st.pos = s0.pos → st.start = s0.start →
    st.groups.length = s0.groups.length → st.accepted = true → 0 ≤ s0.pos → cs ≠ [] → cleans cs.dropLast = true →
    dfs (runs cx cs) [] st = some st' →
    (st'.accepted = true → ∃ (k : Nat) (c : Node), cs[k]? = some c ∧ AltEnds cx c s0 st'.pos ∧ ∀ (j : Nat) (d : Node), j < k → cs[j]? = some d → AltFails cx d s0) ∧
    (st'.accepted = false → ∀ c ∈ cs, AltFails cx c s0) := by
  intro cs
  induction cs with
  | nil => intro st st' _ _ _ _ _ h; exact absurd rfl h
  | cons c cs ih =>
    intro st st' hp hs hg ha h0 _ hcl e
    have ver : ∀ (r : St), run cx c [] st = some r → (r.accepted = true → AltEnds cx c s0 r.pos) ∧ (r.accepted = false → AltFails cx c s0) := by
      intro r hr
      have hR := rest_run cx c [] (by simp)
      have hv : verdict (run cx c []) s0 s0.pos = some (r.accepted, r.pos) := by
        rw [verdict_congr hR hs.symm hg.symm]
        exact verdict_eq hp ha hr
      obtain ⟨r', a1, a2, a3⟩ := verdict_some hv
      exact ⟨fun h => ⟨r', a1, by rw [a2, h], a3⟩, fun h => ⟨r', a1, by rw [a2, h]⟩⟩
    cases cs with
    | nil =>
      simp only [runs, dfs] at e
      obtain ⟨v1, v2⟩ := ver st' e
      refine ⟨fun h => ⟨0, c, rfl, v1 h, by omega⟩, fun h d hd => ?_⟩
      simp only [List.mem_singleton] at hd; subst hd; exact v2 h
    | cons d ds =>
      simp only [runs, dfs] at e
      simp only [List.dropLast_cons₂, cleans, Bool.and_eq_true] at hcl
      cases hr : run cx c [] st with
      | none => rw [hr] at e; simp at e
      | some r =>
        rw [hr] at e
        simp only at e
        obtain ⟨v1, v2⟩ := ver r hr
        by_cases hra : r.accepted = true
        · rw [hra] at e
          simp only [if_true, Option.some.injEq] at e
          subst e
          exact ⟨fun h => ⟨0, c, rfl, v1 h, by omega⟩, fun h => by rw [hra] at h; simp at h⟩
        · simp only [Bool.not_eq_true] at hra
          rw [hra] at e
          simp only [Bool.false_eq_true, if_false] at e
          have hst := (rest_run cx c [] (by simp)).start _ _ hr
          have hpos := run_clean cx c hcl.1 [] _ _ (by rw [hp]; exact h0) hr hra
          obtain ⟨i1, i2⟩ := ih { r with accepted := true } st' (by rw [hpos, hp]) (by rw [hst.1, hs]) (by rw [hst.2, hg]) rfl h0
            (by simp) hcl.2 (by simpa [runs] using e)
          refine ⟨fun h => ?_, fun h x hx => ?_⟩
          · obtain ⟨k, x, k1, k2, k3⟩ := i1 h
            refine ⟨k + 1, x, by simpa using k1, k2, fun j y hj hy => ?_⟩
            cases j with
            | zero => simp only [List.getElem?_cons_zero, Option.some.injEq] at hy; subst hy; exact v2 hra
            | succ j => exact k3 j y (by omega) (by simpa using hy)
          · rcases List.mem_cons.1 hx with rfl | hx
            · exact v2 hra
            · exact i2 h x hx

/-- **C37 (partial).** `A|B|…`: if all alternatives but the last restore their position when they fail, the result is that of the
first alternative that is accepted at the current position, and the alternation fails only if every alternative is rejected
there.  Missing: alternatives that fail after having moved, for which the claim is false (`C37_refuted`), and the functions
that an enclosing group injects into the first alternative. -/
theorem C37_alternatives_in_order_partial (cx : Ctx) (cs : List Node) (st st' : St) (hne : cs ≠ []) (hcl : cleans cs.dropLast = true)
    (h0 : 0 ≤ st.pos) (ha : st.accepted = true) (e : run cx (.alt cs) [] st = some st') :
    (st'.accepted = true → ∃ (k : Nat) (c : Node), cs[k]? = some c ∧ AltEnds cx c st st'.pos ∧ ∀ (j : Nat) (d : Node), j < k → cs[j]? = some d → AltFails cx d st) ∧
    (st'.accepted = false → ∀ c ∈ cs, AltFails cx c st) :=
  alt_in_order cx st cs st st' rfl rfl rfl ha h0 hne hcl (by simpa [run] using e)

/-! ## the hypotheses are met, and where the claims fail -/

section
open ERegex.Conformance (lit m)

/-- The state at the start of an attempt at offset 0, no captures. -/
def st0 : St := { start := 0, pos := 0, groups := [], accepted := true }

/-- `a*ab` on `aaab`: two of the three `a` are taken. -/
example : single (charTree 97) = true ∧ cleans [.simple (.exact [97] [97]) [charTree 98]] = true ∧
    (run (lit "aaab") (.greedy (charTree 97) 0 umax [.simple (.exact [97] [97]) [charTree 98]]) [] st0).map
      (fun r => (r.accepted, r.pos)) = some (true, 4) := by decide +kernel

/-- `(\\d*)1` on `2311x`: the group captures `231`. -/
example : m "(\\d*)1" "2311x" = some [some "2311", some "231"] := by decide +kernel

/-- `a?ab` on `ab` and on `aab`. -/
example : single (charTree 97) = true ∧ cleans [.simple (.exact [97] [97]) [charTree 98]] = true ∧
    flagFreeHead [.simple (.exact [97] [97]) [charTree 98]] = true ∧
    (run (lit "ab") (.greedy (charTree 97) 0 1 [.simple (.exact [97] [97]) [charTree 98]]) [] st0).map
      (fun r => (r.accepted, r.pos)) = some (true, 2) ∧
    (run (lit "aab") (.greedy (charTree 97) 0 1 [.simple (.exact [97] [97]) [charTree 98]]) [] st0).map
      (fun r => (r.accepted, r.pos)) = some (true, 3) := by decide +kernel

/-- `\\s*?x` on `"  x"`. -/
example : oneCh (.simple .space []) = true ∧ cleans [charTree 120] = true ∧
    (run (lit "  x") (.lazy (.simple .space []) 0 umax [charTree 120]) [] st0).map (fun r => (r.accepted, r.pos)) = some (true, 3) := by
  decide +kernel

/-- `[^a]*+b` on `xxb` fails: the `b` has been taken. -/
example : oneCh (.simple (.negated (charTree 97)) []) = true ∧
    (run (lit "xxb") (.possessive (.simple (.negated (charTree 97)) []) 0 umax [charTree 98]) [] st0).map (·.accepted)
      = some false := by decide +kernel

/-- `a{2}b` on `aab`. -/
example : (run (lit "aab") (.repeated (charTree 97) 2 [charTree 98]) [] st0).map (fun r => (r.accepted, r.pos)) = some (true, 3) := by
  decide +kernel

/-- `ab|a|c` on `ac` takes the second alternative. -/
example : cleans [Node.simple (.exact [97] [97]) [charTree 98], charTree 97] = true ∧
    (run (lit "ac") (.alt [.simple (.exact [97] [97]) [charTree 98], charTree 97, charTree 99]) [] st0).map
      (fun r => (r.accepted, r.pos)) = some (true, 1) := by decide +kernel

/-- C22 without the restrictions. -/
def GreedyClaim : Prop :=
  ∀ (cx : Ctx) (m : Node) (p : Int → Bool) (lo hi : Nat) (cs : List Node) (st st' : St) (i : Nat), ClassOf m p → lo ≤ hi → cs ≠ [] →
    st.pos = i → st.start ≤ i → st.accepted = true → run cx (.greedy m lo hi cs) [] st = some st' → st'.accepted = true →
    ∃ n, Largest (Admits cx p lo hi cs st i) n ∧ RestEnds cx cs st (i + n) st'.pos

/-- **C22, refuted for `\\s`.** `\\s*\\s` on `"  x "` is accepted with all four characters. -/
theorem C22_refuted_space : ¬ GreedyClaim := by
  intro h
  obtain ⟨n, ⟨⟨_, _, h2, _⟩, _⟩, h3⟩ := h (lit "  x ") .space (testOf .space) 0 umax [.simple .space []] st0
    { st0 with pos := 4 } 0 (classOf_oneCh rfl) (by decide) (by simp) rfl (by decide) rfl (by decide +kernel) rfl
  have hn : n ≤ 2 := by
    by_cases hn : n ≤ 2
    · exact hn
    · obtain ⟨c, h4, h5⟩ := h2 2 (by omega)
      have h6 : c = 120 := by
        have : (lit "  x ").query[0 + 2]? = some 120 := by decide +kernel
        rw [this] at h4; simp only [Option.some.injEq] at h4; exact h4.symm
      subst h6; exact absurd h5 (by decide +kernel)
  obtain ⟨r, r1, r2, r3⟩ := h3
  rcases (by omega : n = 0 ∨ n = 1 ∨ n = 2) with rfl | rfl | rfl
  all_goals
    have := congrArg (Option.map (fun r : St => r.pos)) r1
    simp only [Option.map_some, r3] at this
    exact absurd this (by decide +kernel)

/-- **C22, refuted for `X?` behind other characters.** `aa?a` on `ab` is accepted although the text is not `aa` or `aaa`: when the
optional `a` is absent the position steps back over the `a` before it. -/
theorem C22_refuted_optional : m "aa?a" "ab" = some [some "a"] := by decide +kernel

/-- **C22, refuted for a repeated negated class.** `[^a]*b` on `xxab` takes the `a`. -/
theorem C22_refuted_negated : m "[^a]*b" "xxab" = some [some "xxab"] := by decide +kernel

/-- **C22, refuted for longer repeated parts.** `(?:a{2})*a` on `aaa` is accepted with the text `aa`. -/
theorem C22_refuted_long : m "(?:a{2})*a" "aaa" = some [some "aa"] := by decide +kernel

/-- **C23, refuted for a rest that moves when it fails.** `x*?a{2}y` on `axaay` takes the `a` in front: the first attempt at `a{2}`
leaves the position behind the `a`. -/
theorem C23_refuted : m "x*?a{2}y" "axaay" = some [some "axaay"] := by decide +kernel

/-- **C37, refuted.** `\\d+a|b` on `12b`: the second alternative is tried where the first one stopped, not at the start. -/
theorem C37_refuted : m "\\d+a|b" "12b" = some [some "12b"] := by decide +kernel
end

end ERegex.Props

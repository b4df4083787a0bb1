import Verif.Spec.Tokens
import Verif.Proofs.Search
import Verif.Proofs.Groups
/-!
# The token iterator
-/
set_option autoImplicit false
namespace ERegex
open Spec

theorem maxElement_spec {α : Type} (size : α → Int) : ∀ (l : List α),
    (maxElement size l = none ∧ l = []) ∨ ∃ x k, maxElement size l = some x ∧ FirstLongest size l k x
  | [] => Or.inl ⟨rfl, rfl⟩
  | a :: l => by
    right
    rcases maxElement_spec size l with ⟨h, rfl⟩ | ⟨x, k, h, h1, h2⟩
    · refine ⟨a, 0, by simp [maxElement], by simp, ?_⟩
      intro i y hi
      cases i with
      | zero => simp at hi; subst hi; exact ⟨Int.le_refl _, by omega⟩
      | succ i => simp at hi
    · by_cases hlt : size a < size x
      · refine ⟨x, k + 1, by simp [maxElement, h, hlt], by simpa using h1, ?_⟩
        intro i y hi
        cases i with
        | zero => simp at hi; subst hi; exact ⟨by omega, fun _ => hlt⟩
        | succ i =>
          simp at hi
          have := h2 i y hi
          exact ⟨this.1, fun hk => this.2 (by omega)⟩
      · refine ⟨a, 0, by simp [maxElement, h, hlt], by simp, ?_⟩
        intro i y hi
        refine ⟨?_, by omega⟩
        cases i with
        | zero => simp at hi; subst hi; exact Int.le_refl _
        | succ i => simp at hi; have := h2 i y hi; omega

theorem mapM_some {α β : Type} {f : α → Option β} : ∀ {l : List α} {r : List β}, l.mapM f = some r →
    r.length = l.length ∧ ∀ (i : Nat) a, l[i]? = some a → ∃ b, f a = some b ∧ r[i]? = some b
  | [], r, h => by simp at h; subst h; simp
  | x :: l, r, h => by
    simp only [List.mapM_cons, Option.pure_def, Option.bind_eq_bind] at h
    cases hx : f x with
    | none => simp [hx] at h
    | some y =>
      cases hl : l.mapM f with
      | none => simp [hx, hl] at h
      | some ys =>
        simp [hx, hl] at h
        subst h
        obtain ⟨h1, h2⟩ := mapM_some hl
        refine ⟨by simp [h1], ?_⟩
        intro i a hi
        cases i with
        | zero => simp at hi; subst hi; exact ⟨y, hx, by simp⟩
        | succ i => simp at hi; simpa using h2 i a hi

theorem mapM_all {α β : Type} {f : α → Option β} : ∀ {l : List α}, (∀ a ∈ l, ∃ b, f a = some b) → ∃ r, l.mapM f = some r
  | [], _ => ⟨[], rfl⟩
  | x :: l, h => by
    obtain ⟨y, hy⟩ := h x (by simp)
    obtain ⟨ys, hl⟩ := mapM_all (l := l) (fun a ha => h a (by simp [ha]))
    exact ⟨y :: ys, by simp [List.mapM_cons, hy, hl]⟩

/-! ## The null view -/

/-- States of a match on the null view. -/
def AtNull (st : St) : Prop := st.start = 0 ∧ st.pos = 0
/-- Functions that stay at the null pointer. -/
def NK (k : K) : Prop := ∀ st st', AtNull st → k st = some st' → AtNull st'
/-- The same for nodes. -/
def NM (f : M) : Prop := ∀ inj, (∀ k ∈ inj, NK k) → NK (f inj)

theorem qend_null : Ctx.null.qend = 0 := rfl
theorem read_null (p : Int) : Ctx.null.read p = none := by simp [Ctx.read, Ctx.null]

theorem dfs_null : ∀ (cs : List M) (inj : List K), (∀ f ∈ cs, NM f) → (∀ k ∈ inj, NK k) → NK (dfs cs inj)
  | [], inj, _, _ => by intro a b h e; simp [dfs] at e; subst e; exact h
  | [f], inj, hc, hi => by intro a b h e; exact hc f (by simp) inj hi a b h e
  | f :: g :: fs, inj, hc, hi => by
    intro a b h e
    simp only [dfs] at e
    split at e
    · simp at e
    · rename_i c ec
      have h1 := hc f (by simp) inj hi a c h ec
      split at e
      · simp at e; subst e; exact h1
      · exact dfs_null (g :: fs) [] (fun k hk => hc k (by simp [hk])) (by simp) { c with accepted := true } _ h1 e

theorem dfsInj_null {inj : List K} (hi : ∀ k ∈ inj, NK k) : NK (dfsInj inj) := by
  refine dfs_null _ _ ?_ (by simp)
  intro f hf
  simp only [List.mem_map] at hf
  obtain ⟨k, hk, rfl⟩ := hf
  exact fun _ _ => hi k hk

theorem guarded_null (m : K) : NK (guarded Ctx.null m) := by
  intro a b h e
  simp only [guarded, qend_null, h.2, ge_iff_le, Int.le_refl, if_true, Option.some.injEq] at e
  subst e; exact ⟨h.1, rfl⟩

theorem simple_null {m : K} {cs : List M} (hm : NK m) (hc : ∀ f ∈ cs, NM f) : NM (simpleMatch m cs) := by
  intro inj hi a b h e
  simp only [simpleMatch] at e
  split at e
  · simp at e
  · rename_i c ec
    have h1 := hm a c h ec
    split at e
    · split at e
      · simp at e
      · rename_i d ed
        have h2 := dfs_null cs inj hc hi c d h1 ed
        split at e <;> (simp at e; subst e)
        · exact h2
        · exact ⟨h2.1, h.2⟩
    · simp at e; subst e; exact h1

theorem repLoop_null {m : K} (hm : NK m) : ∀ (n : Nat) (a b : St) (f : Bool), AtNull a → repLoop m n a = some (f, b) → AtNull b := by
  intro n
  induction n with
  | zero => intro a b f h e; simp [repLoop] at e; rw [← e.2]; exact h
  | succ n ih =>
    intro a b f h e
    simp only [repLoop] at e
    split at e
    · simp at e
    · rename_i c ec
      have h1 := hm a c h ec
      split at e
      · exact ih _ _ _ h1 e
      · simp at e; rw [← e.2]; exact h1

theorem growLoop_null {m : K} (hm : NK m) : ∀ (n k : Nat) (a b : St) (f : Nat), AtNull a → growLoop m n k a = some (f, b) → AtNull b := by
  intro n
  induction n with
  | zero => intro k a b f h e; simp [growLoop] at e; rw [← e.2]; exact h
  | succ n ih =>
    intro k a b f h e
    simp only [growLoop] at e
    split at e
    · simp at e
    · rename_i c ec
      have h1 := hm a c h ec
      split at e
      · exact ih _ _ _ _ h1 e
      · simp at e; rw [← e.2]; exact h1

theorem backtrack_null {cs : List M} {inj : List K} (hc : ∀ f ∈ cs, NM f) (hi : ∀ k ∈ inj, NK k) : NK (greedyBacktrack cs inj) := by
  intro a b h e
  simp only [greedyBacktrack] at e
  split at e
  · split at e
    · simp at e
    · rename_i c ec
      have := dfsInj_null hi a c h ec
      simp at e; subst e; exact ⟨this.1, h.2⟩
  · exact dfs_null cs [] hc (by simp) a b h e

theorem btLoop_null {bt m : K} (hb : NK bt) : ∀ (n : Nat) (a b : St) (f : Bool), AtNull a →
    btLoop bt m 0 n a = some (f, b) → AtNull b := by
  intro n
  induction n with
  | zero => intro a b f h e; simp [btLoop] at e; rw [← e.2]; exact h
  | succ n ih =>
    intro a b f h e
    simp only [btLoop] at e
    split at e
    · simp at e
    · rename_i c ec
      have h1 := hb a c h ec
      split at e
      · simp at e; rw [← e.2]; exact h1
      · simp only [h1.2, Int.sub_self, Int.toNat_zero, scanBack] at e
        exact ih _ _ _ h1 e

theorem optional_null {m : K} {w : Nat} {cs : List M} (hm : NK m) (hc : ∀ f ∈ cs, NM f) : NM (optionalMatch m w cs) := by
  intro inj hi a b h e
  simp only [optionalMatch] at e
  split at e
  · simp at e
  · rename_i c ec
    have h1 := hm a c h ec
    split at e
    · simp at e
    · rename_i d ed
      have h2 := backtrack_null hc hi c d h1 ed
      rw [if_neg (by simp [h2.1, h2.2])] at e
      simp at e; subst e; exact h2

theorem greedy_null {m : K} {lo hi : Nat} {cs : List M} (hm : NK m) (hc : ∀ f ∈ cs, NM f) : NM (greedyMatch m lo hi cs) := by
  intro inj hinj a b h e
  simp only [greedyMatch] at e
  split at e
  · simp at e
  · rename_i c ec
    simp at e; subst e; exact repLoop_null hm _ _ _ _ h ec
  · rename_i c ec
    have h1 := repLoop_null hm _ _ _ _ h ec
    split at e
    · simp at e
    · rename_i k d ed
      have h2 := growLoop_null hm _ _ _ _ _ h1 ed
      rw [h1.2] at e
      split at e
      · simp at e
      · rename_i g eg
        simp at e; subst e; exact btLoop_null (backtrack_null hc hinj) _ _ _ _ h2 eg
      · rename_i g eg
        have h3 := btLoop_null (backtrack_null hc hinj) _ _ _ _ h2 eg
        exact dfs_null cs [] hc (by simp) { g with accepted := true } _ h3 e

theorem lazy_null {m : K} {lo hi : Nat} {cs : List M} (hm : NK m) (hc : ∀ f ∈ cs, NM f) : NM (lazyMatch Ctx.null m lo hi cs) := by
  intro inj hinj a b h e
  simp only [lazyMatch] at e
  split at e
  · simp at e
  · rename_i c ec
    simp at e; subst e; exact repLoop_null hm _ _ _ _ h ec
  · rename_i c ec
    have h1 := repLoop_null hm _ _ _ _ h ec
    have hl : lazyLoop Ctx.null m cs inj a.pos (hi - lo) c = some (false, c) := by
      cases hi - lo with
      | zero => rfl
      | succ n => simp [lazyLoop, h1.2, qend_null]
    rw [hl] at e
    exact dfs_null cs [] hc (by simp) _ _ h1 e

theorem possLoop_null {m : K} {lo : Nat} (hm : NK m) : ∀ (n i : Nat) (a b : St) (f : Bool), AtNull a →
    possLoop m lo n i 0 a = some (f, b) → AtNull b := by
  intro n
  induction n with
  | zero => intro i a b f h e; simp [possLoop] at e; rw [← e.2]; exact h
  | succ n ih =>
    intro i a b f h e
    simp only [possLoop] at e
    split at e
    · simp at e
    · rename_i c ec
      have h1 := hm a c h ec
      split at e
      · rw [h1.2] at e; exact ih _ _ _ _ h1 e
      · split at e <;> (simp at e; rw [← e.2])
        · exact h1
        · exact ⟨h1.1, rfl⟩

theorem possessive_null {m : M} {lo hi : Nat} {cs : List M} (hm : NM m) (hc : ∀ f ∈ cs, NM f) : NM (possessiveMatch m lo hi cs) := by
  intro inj hinj a b h e
  simp only [possessiveMatch] at e
  rw [h.2] at e
  split at e
  · simp at e
  · rename_i c ec
    simp at e; subst e; exact possLoop_null (hm inj hinj) _ _ _ _ _ h ec
  · rename_i c ec
    exact dfs_null cs [] hc (by simp) _ _ (possLoop_null (hm inj hinj) _ _ _ _ _ h ec) e

theorem group_null {m : M} {idx : Nat} {cs : List M} (hm : NM m) (hc : ∀ f ∈ cs, NM f) : NM (groupMatch m idx cs) := by
  intro inj hi a b h e
  have hown : ∀ k ∈ cs.map (fun c => c []), NK k := by
    intro k hk
    simp only [List.mem_map] at hk
    obtain ⟨f, hf, rfl⟩ := hk
    exact hc f hf [] (by simp)
  simp only [groupMatch] at e
  split at e
  · simp at e
  · rename_i c ec
    have h1 := hm _ hown a c h ec
    split at e
    · split at e
      · refine dfs_null cs _ hc ?_ _ _ ?_ e
        · intro k hk
          rcases List.mem_append.1 hk with hk | hk
          · exact hown k hk
          · exact hi k hk
        · exact h1
      · simp at e
    · simp at e; subst e; exact h1

mutual
/-- On the null view a match stays at the null pointer (or reads it, which is undefined behaviour). -/
theorem run_null : ∀ t : Node, NM (run Ctx.null t)
  | .exact .. => by intro inj _; simp only [run]; exact guarded_null _
  | .range .. => by intro inj _; simp only [run]; exact guarded_null _
  | .space => by intro inj _; simp only [run]; exact guarded_null _
  | .word => by intro inj _; simp only [run]; exact guarded_null _
  | .any => by intro inj _; simp only [run]; exact guarded_null _
  | .bos => by
    intro inj _ a b h e
    simp only [run, bosMatch, qend_null, h.2, ge_iff_le, Int.le_refl, if_true, Option.some.injEq] at e
    subst e; exact ⟨h.1, rfl⟩
  | .eol => by
    intro inj _ a b h e
    simp [run, eolMatch, qend_null, h.2, read_null] at e
  | .negated m => by
    intro inj _ a b h e
    simp only [run, negatedMatch, qend_null, h.2, ge_iff_le, Int.le_refl, if_true, Option.some.injEq] at e
    subst e; exact ⟨h.1, rfl⟩
  | .simple m cs => by
    simp only [run]; exact simple_null (run_null m [] (by simp)) (runs_null cs)
  | .alt cs => by simp only [run]; exact fun inj hi => dfs_null _ _ (runs_null cs) hi
  | .greedy m lo hi cs => by
    simp only [run]
    split
    · exact optional_null (run_null m [] (by simp)) (runs_null cs)
    · exact greedy_null (run_null m [] (by simp)) (runs_null cs)
  | .lazy m lo hi cs => by simp only [run]; exact lazy_null (run_null m [] (by simp)) (runs_null cs)
  | .possessive m lo hi cs => by simp only [run]; exact possessive_null (run_null m) (runs_null cs)
  | .repeated m n cs => by
    simp only [run]
    intro inj _ a b h e
    simp only [repeatedMatch] at e
    split at e
    · simp at e
    · rename_i c ec
      simp at e; subst e; exact repLoop_null (run_null m [] (by simp)) _ _ _ _ h ec
    · rename_i c ec
      exact dfs_null _ [] (runs_null cs) (by simp) _ _ (repLoop_null (run_null m [] (by simp)) _ _ _ _ h ec) e
  | .group m idx cs => by simp only [run]; exact group_null (run_null m) (runs_null cs)
/-- All of a list. -/
theorem runs_null : ∀ cs : List Node, ∀ f ∈ runs Ctx.null cs, NM f
  | [], f, h => by simp [runs] at h
  | c :: cs, f, h => by
    simp only [runs, List.mem_cons] at h
    rcases h with rfl | h
    · exact run_null c
    · exact runs_null cs f h
end

/-- Whatever a regex reports on the null view is empty. -/
theorem matchAt_null {fuel : Nat} {t : Node} {v : View} (h : matchAt Ctx.null fuel 0 t = some v) : viewSize v = 0 := by
  have hsub : Ctx.null.sub 0 = Ctx.null := rfl
  simp only [matchAt, hsub] at h
  split at h
  · rename_i st e
    simp only [Option.some.injEq] at h
    subst h
    have key : AtNull st := by
      simp only [construct] at e
      split at e
      · simp at e
      · rename_i s1 e1
        have h1 : AtNull s1 := run_null t [] (by simp) _ _ ⟨rfl, rfl⟩ e1
        split at e
        · simp at e; subst e; exact h1
        · have : next Ctx.null t fuel s1 = .ok { s1 with groups := List.replicate (groupsOf t) none, start := s1.pos, accepted := false } := by
            simp only [next]
            cases fuel with
            | zero => simp [nextLoop, qend_null, h1.2]
            | succ f => simp [nextLoop, qend_null, h1.2]
          rw [this] at e
          simp at e; subst e; exact ⟨h1.2, h1.2⟩
    simp only [toView]
    split <;> simp [viewSize, key.1, key.2]
  · simp at h

/-! ## Matching at an offset of the input -/

theorem sub_qend {cx : Ctx} {b : Nat} (hb : b ≤ cx.query.length) : (cx.sub b).qend = cx.qend - b := by
  simp only [Ctx.qend, Ctx.sub, List.length_drop]; omega

/-- A view inside `[b, end)`. -/
def Within (cx : Ctx) (b : Nat) (v : View) : Prop := ∀ s e, v = some (s, e) → (b : Int) ≤ s ∧ s ≤ e ∧ e ≤ cx.qend

theorem matchAt_good {cx : Ctx} {b : Nat} {t : Node} {fuel : Nat} (hb : b ≤ cx.query.length) (hs : SafeTree (cx.sub b) t)
    (hf : cx.query.length ≤ fuel) : ∃ v, matchAt cx fuel b t = some v ∧ Within cx b v := by
  have hq := sub_qend hb
  rcases construct_good hs fuel with ⟨st, e, hi⟩ | ⟨_, h⟩
  · refine ⟨_, by rw [matchAt, e], ?_⟩
    intro s e' h
    simp only [toView] at h
    split at h
    · rename_i ha
      simp at h
      have := hi.acc ha
      have := hi.start
      omega
    · simp at h
  · rw [hq] at h; simp only [Ctx.qend] at h; omega

end ERegex

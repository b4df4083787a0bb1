import Verif.Proofs.Search
/-!
# Matching does not move backwards

A greedy optional (`X?`, `X{0,1}`) over a matcher of fixed width goes back that width when the rest of the pattern fails,
even if the matcher had not matched.  In trees without such nodes every match ends at or behind the position where it began,
and every capture ends at or behind its beginning.
-/
set_option autoImplicit false
namespace ERegex
open Spec

mutual
/-- No greedy optional of a fixed non-zero width. -/
def forward : Node → Bool
  | .exact .. | .range .. | .space | .word | .any | .bos | .eol => true
  | .negated m => forward m
  | .simple m cs | .lazy m _ _ cs | .possessive m _ _ cs | .repeated m _ cs | .group m _ cs => forward m && forwards cs
  | .alt cs => forwards cs
  | .greedy m lo hi cs =>
    forward m && forwards cs && (!(lo == 0 && hi == 1 && minSize m == maxSize m) || minSize m == 0)
/-- All of a list. -/
def forwards : List Node → Bool
  | [] => true
  | c :: cs => forward c && forwards cs
end

/-- Every capture ends at or behind its beginning. -/
def Ordered (st : St) : Prop := ∀ a b, some (a, b) ∈ st.groups → a ≤ b

/-- `b` is at or behind `B`, and its captures are ordered if those of `a` are. -/
def Low (B : Int) (a b : St) : Prop := B ≤ b.pos ∧ (Ordered a → Ordered b)

theorem Low.trans {B : Int} {a b c : St} (h1 : Low B a b) (h2 : Low b.pos b c) : Low B a c :=
  ⟨by have := h1.1; have := h2.1; omega, fun h => h2.2 (h1.2 h)⟩
theorem Low.then {B C : Int} {a b c : St} (h1 : Low B a b) (h2 : Low C b c) : Low C a c :=
  ⟨h2.1, fun h => h2.2 (h1.2 h)⟩
theorem Low.refl (a : St) : Low a.pos a a := ⟨by omega, id⟩
theorem Low.upd {B : Int} {a : St} (p : Int) (f : Bool) (h : B ≤ p) : Low B a { a with pos := p, accepted := f } := ⟨h, id⟩
theorem Low.flag {B : Int} {a : St} (f : Bool) (h : B ≤ a.pos) : Low B a { a with accepted := f } := ⟨h, id⟩
theorem Low.mv {B : Int} {a : St} (p : Int) (h : B ≤ p) : Low B a { a with pos := p } := ⟨h, id⟩
theorem Low.mono {B C : Int} {a b : St} (h : Low B a b) (hc : C ≤ B) : Low C a b := ⟨by have := h.1; omega, h.2⟩

/-- A function that does not move backwards. -/
def FK (k : K) : Prop := ∀ st st', k st = some st' → Low st.pos st st'
/-- The same for nodes with injected children. -/
def FM (f : M) : Prop := ∀ inj, (∀ k ∈ inj, FK k) → FK (f inj)

theorem dfs_fwd : ∀ (cs : List M) (inj : List K), (∀ f ∈ cs, FM f) → (∀ k ∈ inj, FK k) → FK (dfs cs inj) := by
  intro cs
  induction cs with
  | nil => intro inj _ _ a b h; simp [dfs] at h; subst h; exact Low.refl _
  | cons f cs ih =>
    intro inj hc hi a b h
    have hf := hc f (by simp) inj hi
    cases cs with
    | nil => exact hf a b (by simpa [dfs] using h)
    | cons g cs =>
      simp only [dfs] at h
      split at h
      · simp at h
      · rename_i a' ha
        have h1 := hf a a' ha
        split at h
        · simp at h; subst h; exact h1
        · exact h1.trans ((Low.flag true (by omega)).trans (ih [] (fun f hf => hc f (by simp [hf])) (by simp) _ _ h))

theorem dfsInj_fwd {inj : List K} (hi : ∀ k ∈ inj, FK k) : FK (dfsInj inj) := by
  refine dfs_fwd _ _ ?_ (by simp)
  intro f hf
  simp only [List.mem_map] at hf
  obtain ⟨k, hk, rfl⟩ := hf
  intro _ _
  exact hi k hk

theorem guarded_fwd {cx : Ctx} {m : K} (h : FK m) : FK (guarded cx m) := by
  intro a b e
  simp only [guarded] at e
  split at e
  · simp at e; subst e; exact Low.flag _ (by omega)
  · exact h a b e

theorem oneChar_fwd {cx : Ctx} {p : Int → Bool} : FK (oneChar cx p) := by
  intro a b e
  simp only [oneChar] at e
  split at e
  · simp at e
  · split at e <;> simp at e <;> subst e
    · exact ⟨by simp only; omega, id⟩
    · exact Low.flag _ (by omega)

theorem space_fwd {cx : Ctx} : FK (spaceMatch cx) := by
  intro a b e
  simp only [spaceMatch] at e
  split at e
  · simp at e
  · simp at e; subst e; exact ⟨by simp only; omega, id⟩

theorem exactLoop_fwd {cx : Ctx} (start : Int) : ∀ (s : List Int) (a b : St), start ≤ a.pos → exactLoop cx start s a = some b →
    Low start a b := by
  intro s
  induction s with
  | nil => intro a b h e; simp [exactLoop] at e; subst e; exact (Low.refl _).mono h
  | cons c s ih =>
    intro a b h e
    simp only [exactLoop] at e
    split at e
    · simp at e
    · split at e
      · simp at e; subst e; exact ⟨by simp, id⟩
      · exact (Low.mv (a := a) (a.pos + 1) (by omega : start ≤ a.pos + 1)).then (ih _ _ (by simp only; omega) e)

theorem exact_fwd {cx : Ctx} {s : List Int} : FK (exactMatch cx s) := by
  intro a b e
  exact (Low.flag (a := a) true (by omega : a.pos ≤ a.pos)).then (exactLoop_fwd _ _ _ _ (by simp) e)

theorem bos_fwd {cx : Ctx} : FK (bosMatch cx) := by
  intro a b e
  simp only [bosMatch] at e
  split at e <;> simp at e <;> subst e <;> exact Low.flag _ (by omega)

theorem eol_fwd {cx : Ctx} : FK (eolMatch cx) := by
  intro a b e
  simp only [eolMatch] at e
  split at e
  · simp at e; subst e; exact Low.flag _ (by omega)
  · split at e
    · simp at e
    · split at e <;> simp at e <;> subst e
      · exact ⟨by simp only; omega, id⟩
      · exact Low.flag _ (by omega)

theorem negated_fwd {cx : Ctx} {m : K} (h : FK m) : FK (negatedMatch cx m) := by
  intro a b e
  simp only [negatedMatch] at e
  split at e
  · simp at e; subst e; exact Low.flag _ (by omega)
  · split at e
    · simp at e
    · rename_i a' ha
      have h1 := h a a' ha
      split at e <;> simp at e <;> subst e
      · exact h1.trans (Low.flag _ (by omega))
      · exact ⟨by have := h1.1; simp only; omega, h1.2⟩

theorem simple_fwd {m : K} {cs : List M} (hm : FK m) (hc : ∀ f ∈ cs, FM f) : FM (simpleMatch m cs) := by
  intro inj hi a b e
  simp only [simpleMatch] at e
  split at e
  · simp at e
  · rename_i a1 h1
    have t1 := hm a a1 h1
    split at e
    · split at e
      · simp at e
      · rename_i a2 h2
        have t2 := dfs_fwd cs inj hc hi a1 a2 h2
        split at e <;> simp at e <;> subst e
        · exact t1.trans t2
        · exact (t1.trans t2).then (Low.mv _ (by omega))
    · simp at e; subst e; exact t1

theorem repLoop_fwd {m : K} (hm : FK m) : ∀ (n : Nat) (a b : St) (f : Bool), repLoop m n a = some (f, b) → Low a.pos a b := by
  intro n
  induction n with
  | zero => intro a b f e; simp [repLoop] at e; rw [e.2]; exact Low.refl _
  | succ n ih =>
    intro a b f e
    simp only [repLoop] at e
    split at e
    · simp at e
    · rename_i a1 h1
      have t1 := hm a a1 h1
      split at e
      · exact t1.trans (ih _ _ _ e)
      · simp at e; rw [← e.2]; exact t1

theorem repeated_fwd {m : K} {n : Nat} {cs : List M} (hm : FK m) (hc : ∀ f ∈ cs, FM f) : FM (repeatedMatch m n cs) := by
  intro inj hi a b e
  simp only [repeatedMatch] at e
  split at e
  · simp at e
  · rename_i a1 h1; simp at e; subst e; exact repLoop_fwd hm _ _ _ _ h1
  · rename_i a1 h1
    exact (repLoop_fwd hm _ _ _ _ h1).trans (dfs_fwd cs [] hc (by simp) _ _ e)

theorem growLoop_fwd {m : K} (hm : FK m) : ∀ (n k : Nat) (a b : St) (f : Nat), growLoop m n k a = some (f, b) → Low a.pos a b := by
  intro n
  induction n with
  | zero => intro k a b f e; simp [growLoop] at e; rw [e.2]; exact Low.refl _
  | succ n ih =>
    intro k a b f e
    simp only [growLoop] at e
    split at e
    · simp at e
    · rename_i a1 h1
      have t1 := hm a a1 h1
      split at e
      · exact t1.trans (ih _ _ _ _ e)
      · simp at e; rw [← e.2]; exact t1.trans (Low.flag _ (by omega))

theorem scanBack_fwd {m : K} (hm : FK m) (B : Int) : ∀ (n : Nat) (it : Int) (a b : St), B ≤ it - n + 1 → B ≤ a.pos →
    scanBack m n it a = some b → Low B a b := by
  intro n
  induction n with
  | zero => intro it a b _ h e; simp [scanBack] at e; subst e; exact (Low.refl _).mono h
  | succ n ih =>
    intro it a b h h' e
    simp only [scanBack] at e
    split at e
    · simp at e
    · rename_i a1 h1
      have t0 := hm _ _ h1
      have t1 : Low B a a1 := (Low.mv (a := a) it (by omega : B ≤ it)).then (t0.mono (by simp only; omega))
      split at e
      · simp at e; subst e; exact t1.then (Low.mv _ (by omega))
      · exact t1.then (ih _ _ _ (by omega) t1.1 e)

theorem btLoop_fwd {bt m : K} (hb : FK bt) (hm : FK m) (start : Int) : ∀ (n : Nat) (a b : St) (f : Bool), start ≤ a.pos →
    btLoop bt m start n a = some (f, b) → Low start a b := by
  intro n
  induction n with
  | zero => intro a b f h e; simp [btLoop] at e; rw [← e.2]; exact (Low.refl _).mono h
  | succ n ih =>
    intro a b f h e
    simp only [btLoop] at e
    split at e
    · simp at e
    · rename_i a1 h1
      have t1 := hb a a1 h1
      have t1' : Low start a a1 := t1.mono h
      split at e
      · simp at e; rw [← e.2]; exact t1'
      · split at e
        · simp at e
        · rename_i a2 h2
          have t2 : Low start a1 a2 := scanBack_fwd hm start _ _ _ _ (by have := t1'.1; omega) t1'.1 h2
          exact t1'.then (t2.then (ih _ _ _ t2.1 e))

theorem backtrack_fwd {cs : List M} {inj : List K} (hc : ∀ f ∈ cs, FM f) (hi : ∀ k ∈ inj, FK k) :
    FK (greedyBacktrack cs inj) := by
  intro a b e
  simp only [greedyBacktrack] at e
  split at e
  · split at e
    · simp at e
    · rename_i a1 h1
      simp at e; subst e
      exact (dfsInj_fwd hi a a1 h1).then (Low.mv _ (by omega))
  · exact dfs_fwd cs [] hc (by simp) a b e

theorem optional_fwd {m : K} {cs : List M} (hm : FK m) (hc : ∀ f ∈ cs, FM f) : FM (optionalMatch m 0 cs) := by
  intro inj hi a b e
  simp only [optionalMatch] at e
  split at e
  · simp at e
  · rename_i a1 h1
    split at e
    · simp at e
    · rename_i a2 h2
      have t2 := (hm _ _ h1).trans (backtrack_fwd hc hi _ _ h2)
      split at e
      · exact t2.trans ((Low.mv (a := a2) (a2.pos - (0 : Nat)) (by omega : a2.pos ≤ a2.pos - (0 : Nat))).trans
          (backtrack_fwd hc hi _ _ e))
      · simp at e; subst e; exact t2

theorem greedy_fwd {m : K} {lo hi : Nat} {cs : List M} (hm : FK m) (hc : ∀ f ∈ cs, FM f) : FM (greedyMatch m lo hi cs) := by
  intro inj hi' a b e
  simp only [greedyMatch] at e
  split at e
  · simp at e
  · rename_i a1 h1; simp at e; subst e; exact repLoop_fwd hm _ _ _ _ h1
  · rename_i a1 h1
    have t1 := repLoop_fwd hm _ _ _ _ h1
    split at e
    · simp at e
    · rename_i k a2 h2
      have t2 := growLoop_fwd hm _ _ _ _ _ h2
      split at e
      · simp at e
      · rename_i a3 h3
        simp at e; subst e
        have t3 := btLoop_fwd (backtrack_fwd hc hi') hm _ _ _ _ _ t2.1 h3
        exact t1.trans (t2.then t3)
      · rename_i a3 h3
        have t3 := btLoop_fwd (backtrack_fwd hc hi') hm _ _ _ _ _ t2.1 h3
        exact (t1.trans (t2.then t3)).trans ((Low.flag true (by omega)).trans (dfs_fwd cs [] hc (by simp) _ _ e))

theorem lazyLoop_fwd {cx : Ctx} {m : K} {cs : List M} {inj : List K} {start : Int} (hm : FK m)
    (hc : ∀ f ∈ cs, FM f) (hi : ∀ k ∈ inj, FK k) : ∀ (n : Nat) (a b : St) (f : Bool), start ≤ a.pos →
    lazyLoop cx m cs inj start n a = some (f, b) → Low start a b := by
  intro n
  induction n with
  | zero => intro a b f h e; simp [lazyLoop] at e; rw [← e.2]; exact (Low.refl _).mono h
  | succ n ih =>
    intro a b f h e
    simp only [lazyLoop] at e
    split at e
    · split at e
      · split at e
        · simp at e
        · rename_i a1 h1
          have t1 := dfsInj_fwd hi a a1 h1
          split at e
          · simp at e; rw [← e.2]; exact t1.then (Low.mv _ h)
          · split at e
            · simp at e
            · rename_i a2 h2
              have t2 : Low start a a2 := (t1.then (Low.mv a.pos (by omega : start ≤ a.pos))).then ((hm _ _ h2).mono h)
              split at e
              · exact t2.then (ih _ _ _ t2.1 e)
              · simp at e; rw [← e.2]; exact t2.then (Low.mv _ (by omega))
      · split at e
        · simp at e
        · rename_i a1 h1
          have t1 := dfs_fwd cs [] hc (by simp) a a1 h1
          split at e
          · simp at e; rw [← e.2]; exact t1.mono h
          · split at e
            · simp at e
            · rename_i a2 h2
              have t2 : Low start a a2 := (t1.trans (hm _ _ h2)).mono h
              split at e
              · exact t2.then (ih _ _ _ t2.1 e)
              · simp at e; rw [← e.2]; exact t2.then (Low.mv _ (by omega))
    · simp at e; rw [← e.2]; exact (Low.refl _).mono h

theorem lazy_fwd {cx : Ctx} {m : K} {lo hi : Nat} {cs : List M} (hm : FK m) (hc : ∀ f ∈ cs, FM f) :
    FM (lazyMatch cx m lo hi cs) := by
  intro inj hi' a b e
  simp only [lazyMatch] at e
  split at e
  · simp at e
  · rename_i a1 h1; simp at e; subst e; exact repLoop_fwd hm _ _ _ _ h1
  · rename_i a1 h1
    have t1 := repLoop_fwd hm _ _ _ _ h1
    split at e
    · simp at e
    · rename_i a2 h2
      simp at e; subst e
      exact t1.then (lazyLoop_fwd hm hc hi' _ _ _ _ t1.1 h2)
    · rename_i a2 h2
      exact (t1.then (lazyLoop_fwd hm hc hi' _ _ _ _ t1.1 h2)).trans (dfs_fwd cs [] hc (by simp) _ _ e)

theorem possLoop_fwd {m : K} {lo : Nat} (hm : FK m) (B : Int) : ∀ (n i : Nat) (last : Int) (a b : St) (f : Bool), B ≤ a.pos →
    B ≤ last → possLoop m lo n i last a = some (f, b) → Low B a b := by
  intro n
  induction n with
  | zero => intro i last a b f h _ e; simp [possLoop] at e; rw [← e.2]; exact (Low.refl _).mono h
  | succ n ih =>
    intro i last a b f h h' e
    simp only [possLoop] at e
    split at e
    · simp at e
    · rename_i a1 h1
      have t1 := (hm a a1 h1).mono h
      split at e
      · exact t1.then (ih _ _ _ _ _ t1.1 t1.1 e)
      · split at e <;> simp at e <;> rw [← e.2]
        · exact t1
        · exact t1.then (Low.upd _ _ h')

theorem possessive_fwd {m : M} {lo hi : Nat} {cs : List M} (hm : FM m) (hc : ∀ f ∈ cs, FM f) :
    FM (possessiveMatch m lo hi cs) := by
  intro inj hi' a b e
  simp only [possessiveMatch] at e
  split at e
  · simp at e
  · rename_i a1 h1; simp at e; subst e; exact possLoop_fwd (hm inj hi') _ _ _ _ _ _ _ (by omega) (by omega) h1
  · rename_i a1 h1
    exact (possLoop_fwd (hm inj hi') _ _ _ _ _ _ _ (by omega) (by omega) h1).trans (dfs_fwd cs [] hc (by simp) _ _ e)

theorem ordered_set {st : St} (h : Ordered st) (i : Nat) {x y : Int} (hxy : x ≤ y) :
    Ordered { st with groups := st.groups.set i (some (x, y)) } := by
  intro a b hab
  rcases List.mem_or_eq_of_mem_set hab with hm | hm
  · exact h a b hm
  · simp at hm; omega

theorem group_fwd {m : M} {idx : Nat} {cs : List M} (hm : FM m) (hc : ∀ f ∈ cs, FM f) : FM (groupMatch m idx cs) := by
  intro inj hi a b e
  have hown : ∀ k ∈ cs.map (fun c => c []), FK k := by
    intro k hk
    simp only [List.mem_map] at hk
    obtain ⟨c, hcm, rfl⟩ := hk
    exact hc c hcm [] (by simp)
  simp only [groupMatch] at e
  split at e
  · simp at e
  · rename_i a1 h1
    have t1 := hm _ hown a a1 h1
    split at e
    · split at e
      · have t2 : Low a.pos a { a1 with groups := a1.groups.set idx (some (a.pos, a1.pos)) } :=
          ⟨t1.1, fun h => ordered_set (t1.2 h) idx t1.1⟩
        refine t2.trans (dfs_fwd cs _ hc ?_ _ _ e)
        intro k hk
        rcases List.mem_append.1 hk with hk | hk
        · exact hown k hk
        · exact hi k hk
      · simp at e
    · simp at e; subst e; exact t1

mutual
/-- A forward tree does not move backwards. -/
theorem run_fwd (cx : Ctx) : ∀ t : Node, forward t = true → FM (run cx t)
  | .exact s d, _ => by intro inj _; simp only [run]; exact guarded_fwd exact_fwd
  | .range .., _ => by intro inj _; simp only [run]; exact guarded_fwd oneChar_fwd
  | .word, _ => by intro inj _; simp only [run]; exact guarded_fwd oneChar_fwd
  | .any, _ => by intro inj _; simp only [run]; exact guarded_fwd oneChar_fwd
  | .space, _ => by intro inj _; simp only [run]; exact guarded_fwd space_fwd
  | .bos, _ => by intro inj _; simp only [run]; exact bos_fwd
  | .eol, _ => by intro inj _; simp only [run]; exact eol_fwd
  | .negated m, h => by
    intro inj _; simp only [run]
    exact negated_fwd (run_fwd cx m (by simpa [forward] using h) [] (by simp))
  | .simple m cs, h => by
    simp only [run]; simp only [forward, Bool.and_eq_true] at h
    exact simple_fwd (run_fwd cx m h.1 [] (by simp)) (runs_fwd cx cs h.2)
  | .alt cs, h => by
    simp only [run]; simp only [forward] at h
    intro inj hi
    exact dfs_fwd _ _ (runs_fwd cx cs h) hi
  | .greedy m lo hi cs, h => by
    simp only [run]; simp only [forward, Bool.and_eq_true] at h
    split
    · rename_i hcond
      have hw : minSize m = 0 := by
        have := h.2
        simp [hcond.1, hcond.2.1, hcond.2.2] at this
        rw [hcond.2.2]; exact this
      rw [hw]
      exact optional_fwd (run_fwd cx m h.1.1 [] (by simp)) (runs_fwd cx cs h.1.2)
    · exact greedy_fwd (run_fwd cx m h.1.1 [] (by simp)) (runs_fwd cx cs h.1.2)
  | .lazy m lo hi cs, h => by
    simp only [run]; simp only [forward, Bool.and_eq_true] at h
    exact lazy_fwd (run_fwd cx m h.1 [] (by simp)) (runs_fwd cx cs h.2)
  | .possessive m lo hi cs, h => by
    simp only [run]; simp only [forward, Bool.and_eq_true] at h
    exact possessive_fwd (run_fwd cx m h.1) (runs_fwd cx cs h.2)
  | .repeated m n cs, h => by
    simp only [run]; simp only [forward, Bool.and_eq_true] at h
    exact repeated_fwd (run_fwd cx m h.1 [] (by simp)) (runs_fwd cx cs h.2)
  | .group m idx cs, h => by
    simp only [run]; simp only [forward, Bool.and_eq_true] at h
    exact group_fwd (run_fwd cx m h.1) (runs_fwd cx cs h.2)
theorem runs_fwd (cx : Ctx) : ∀ cs : List Node, forwards cs = true → ∀ f ∈ runs cx cs, FM f
  | [], _ => by simp [runs]
  | c :: cs, h => by
    simp only [forwards, Bool.and_eq_true] at h
    intro f hf
    simp only [runs, List.mem_cons] at hf
    rcases hf with rfl | hf
    · exact run_fwd cx c h.1
    · exact runs_fwd cx cs h.2 f hf
end

/-! ## Search over forward trees -/

/-- The search goes forward, ends within one attempt per remaining position, and leaves ordered captures. -/
theorem nextLoop_fwd {cx : Ctx} {m : K} (hm : FK m) (hst : ∀ a b, m a = some b → b.start = a.start) :
    ∀ (f : Nat) (st : St), st.start = st.pos → Ordered st →
    nextLoop cx m f st = .ub ∨
    (∃ st', nextLoop cx m f st = .ok st' ∧ Ordered st' ∧ st.start ≤ st'.start ∧ st'.start ≤ st'.pos ∧
      (st'.accepted = true → st'.start < cx.qend) ∧ (st'.accepted = false → cx.qend ≤ st'.start ∧ st'.start = st'.pos)) ∨
      (nextLoop cx m f st = .timeout ∧ (f : Int) < cx.qend - st.start) := by
  intro f
  induction f with
  | zero =>
    intro st h1 h2
    simp only [nextLoop]
    split
    · right; right; exact ⟨rfl, by omega⟩
    · right; left
      refine ⟨_, rfl, h2, by simp, by simp only; omega, by simp, ?_⟩
      intro _; simp only; omega
  | succ f ih =>
    intro st h1 h2
    simp only [nextLoop]
    split
    · rename_i hlt
      cases e : m st with
      | none => left; simp
      | some st' =>
        simp only
        have hs := hst _ _ e
        have hl := hm _ _ e
        have hp := hl.1
        split
        · rename_i ha
          right; left
          refine ⟨st', rfl, hl.2 h2, by omega, by omega, fun _ => by omega, ?_⟩
          intro h; rw [ha] at h; simp at h
        · rcases ih { st' with start := st'.pos + 1, pos := st'.pos + 1 } rfl (hl.2 h2) with e2 | ⟨st2, e2, hf⟩ | ⟨e2, hf⟩
          · left; exact e2
          · right; left
            exact ⟨st2, e2, hf.1, by have := hf.2.1; simp only at this; omega, hf.2.2⟩
          · right; right
            simp only at hf
            exact ⟨e2, by push_cast; omega⟩
    · rename_i hge
      right; left
      refine ⟨_, rfl, h2, by simp, by simp only; omega, by simp, ?_⟩
      intro _; simp only; omega

theorem ordered_replicate {st : St} {n : Nat} (h : st.groups = List.replicate n none) : Ordered st := by
  intro a b hab
  rw [h] at hab
  simp at hab

/-- `next()` of a forward tree. -/
theorem next_fwd {cx : Ctx} {t : Node} (h : forward t = true) (f : Nat) (st : St) :
    next cx t f st = .ub ∨
    (∃ st', next cx t f st = .ok st' ∧ Ordered st' ∧ st.pos ≤ st'.start ∧ st'.start ≤ st'.pos ∧
      (st'.accepted = true → st'.start < cx.qend) ∧ (st'.accepted = false → cx.qend ≤ st'.start ∧ st'.start = st'.pos)) ∨
      (next cx t f st = .timeout ∧ (f : Int) < cx.qend - st.pos) :=
  nextLoop_fwd (run_fwd cx t h [] (by simp)) (run_start cx t) f _ rfl (ordered_replicate rfl)

/-- The constructor over a forward tree. -/
theorem construct_fwd {cx : Ctx} {t : Node} (h : forward t = true) (f : Nat) :
    construct cx t f = .ub ∨
    (∃ st', construct cx t f = .ok st' ∧ Ordered st' ∧ 0 ≤ st'.start ∧ st'.start ≤ st'.pos) ∨
      (construct cx t f = .timeout ∧ (f : Int) < cx.qend) := by
  simp only [construct]
  cases e : run cx t [] (initSt t) with
  | none => left; simp
  | some st1 =>
    simp only
    have hs := run_start cx t _ _ e
    have hl := run_fwd cx t h [] (by simp) _ _ e
    have h0 := hl.1
    simp only [initSt] at hs h0
    split
    · right; left
      exact ⟨st1, rfl, hl.2 (ordered_replicate rfl), by omega, by omega⟩
    · rcases next_fwd (cx := cx) h f st1 with e2 | ⟨st2, e2, hf⟩ | ⟨e2, hf⟩
      · left; exact e2
      · right; left; exact ⟨st2, e2, hf.1, by omega, hf.2.2.1⟩
      · right; right; exact ⟨e2, by omega⟩

end ERegex

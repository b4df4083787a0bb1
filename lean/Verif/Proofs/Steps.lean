import Verif.Model.Match
import Verif.Proofs.Optimize
/-!
# What a match attempt can change

Every match is a composition of moves of the position, changes of the flag and capture writes; so any reflexive transitive
relation that contains these holds between the state before and after.
-/
set_option autoImplicit false
namespace ERegex
open Spec

/-- A step relation closed under everything a match does; `I` = the capture slots that may be written. -/
structure Steps (I : List Nat) (T : St → St → Prop) : Prop where
  refl : ∀ a, T a a
  trans : ∀ a b c, T a b → T b c → T a c
  upd : ∀ (a : St) (p : Int) (f : Bool), T a { a with pos := p, accepted := f }
  cap : ∀ (a : St) (i : Nat) (v : Option (Int × Int)), i ∈ I → T a { a with groups := a.groups.set i v }

section
variable {I : List Nat} {T : St → St → Prop}

theorem Steps.flag (h : Steps I T) (a : St) (f : Bool) : T a { a with accepted := f } := h.upd a a.pos f
theorem Steps.mv (h : Steps I T) (a : St) (p : Int) : T a { a with pos := p } := h.upd a p a.accepted

/-- A function whose results are reachable by steps. -/
def SK (T : St → St → Prop) (k : K) : Prop := ∀ st st', k st = some st' → T st st'
/-- The same for nodes with injected children. -/
def SM (T : St → St → Prop) (f : M) : Prop := ∀ inj, (∀ k ∈ inj, SK T k) → SK T (f inj)

variable (H : Steps I T)
include H

theorem dfs_steps : ∀ (cs : List M) (inj : List K), (∀ f ∈ cs, SM T f) → (∀ k ∈ inj, SK T k) → SK T (dfs cs inj) := by
  intro cs
  induction cs with
  | nil => intro inj _ _ a b h; simp [dfs] at h; subst h; exact H.refl _
  | cons f cs ih =>
    intro inj hc hi a b h
    have hf := hc f (by simp) inj hi
    cases cs with
    | nil => exact hf a b (by simpa [dfs] using h)
    | cons g cs =>
      simp only [dfs] at h
      split at h
      · simp at h
      · rename_i a' ha
        have h1 := hf a a' ha
        split at h
        · simp at h; subst h; exact h1
        · exact H.trans _ _ _ h1 (H.trans _ _ _ (H.flag a' true) (ih [] (fun f hf => hc f (by simp [hf])) (by simp) _ _ h))

theorem dfsInj_steps {inj : List K} (hi : ∀ k ∈ inj, SK T k) : SK T (dfsInj inj) := by
  refine dfs_steps H _ _ ?_ (by simp)
  intro f hf
  simp only [List.mem_map] at hf
  obtain ⟨k, hk, rfl⟩ := hf
  intro _ _
  exact hi k hk

theorem guarded_steps {cx : Ctx} {m : K} (h : SK T m) : SK T (guarded cx m) := by
  intro a b e
  simp only [guarded] at e
  split at e
  · simp at e; subst e; exact H.flag _ _
  · exact h a b e

theorem oneChar_steps {cx : Ctx} {p : Int → Bool} : SK T (oneChar cx p) := by
  intro a b e
  simp only [oneChar] at e
  split at e
  · simp at e
  · split at e <;> simp at e <;> subst e
    · exact H.upd _ _ _
    · exact H.flag _ _

theorem space_steps {cx : Ctx} : SK T (spaceMatch cx) := by
  intro a b e
  simp only [spaceMatch] at e
  split at e
  · simp at e
  · simp at e; subst e; exact H.upd _ _ _

theorem exactLoop_steps {cx : Ctx} (start : Int) : ∀ s : List Int, SK T (exactLoop cx start s) := by
  intro s
  induction s with
  | nil => intro a b e; simp [exactLoop] at e; subst e; exact H.refl _
  | cons c s ih =>
    intro a b e
    simp only [exactLoop] at e
    split at e
    · simp at e
    · split at e
      · simp at e; subst e; exact H.upd _ _ _
      · exact H.trans _ _ _ (H.mv a _) (ih _ _ e)

theorem exact_steps {cx : Ctx} {s : List Int} : SK T (exactMatch cx s) := by
  intro a b e
  exact H.trans _ _ _ (H.flag a true) (exactLoop_steps H _ _ _ _ e)

theorem bos_steps {cx : Ctx} : SK T (bosMatch cx) := by
  intro a b e
  simp only [bosMatch] at e
  split at e <;> simp at e <;> subst e <;> exact H.flag _ _

theorem eol_steps {cx : Ctx} : SK T (eolMatch cx) := by
  intro a b e
  simp only [eolMatch] at e
  split at e
  · simp at e; subst e; exact H.flag _ _
  · split at e
    · simp at e
    · split at e <;> simp at e <;> subst e
      · exact H.upd _ _ _
      · exact H.flag _ _

theorem negated_steps {cx : Ctx} {m : K} (h : SK T m) : SK T (negatedMatch cx m) := by
  intro a b e
  simp only [negatedMatch] at e
  split at e
  · simp at e; subst e; exact H.flag _ _
  · split at e
    · simp at e
    · rename_i a' ha
      have h1 := h a a' ha
      split at e <;> simp at e <;> subst e
      · exact H.trans _ _ _ h1 (H.flag _ _)
      · exact H.trans _ _ _ h1 (H.upd _ _ _)

theorem simple_steps {m : K} {cs : List M} (hm : SK T m) (hc : ∀ f ∈ cs, SM T f) : SM T (simpleMatch m cs) := by
  intro inj hi a b e
  simp only [simpleMatch] at e
  split at e
  · simp at e
  · rename_i a1 h1
    have t1 := hm a a1 h1
    split at e
    · split at e
      · simp at e
      · rename_i a2 h2
        have t2 := dfs_steps H cs inj hc hi a1 a2 h2
        split at e <;> simp at e <;> subst e
        · exact H.trans _ _ _ t1 t2
        · exact H.trans _ _ _ t1 (H.trans _ _ _ t2 (H.mv _ _))
    · simp at e; subst e; exact t1

theorem repLoop_steps {m : K} (hm : SK T m) : ∀ (n : Nat) (a b : St) (f : Bool), repLoop m n a = some (f, b) → T a b := by
  intro n
  induction n with
  | zero => intro a b f e; simp [repLoop] at e; rw [e.2]; exact H.refl _
  | succ n ih =>
    intro a b f e
    simp only [repLoop] at e
    split at e
    · simp at e
    · rename_i a1 h1
      have t1 := hm a a1 h1
      split at e
      · exact H.trans _ _ _ t1 (ih _ _ _ e)
      · simp at e; rw [← e.2]; exact t1

theorem repeated_steps {m : K} {n : Nat} {cs : List M} (hm : SK T m) (hc : ∀ f ∈ cs, SM T f) :
    SM T (repeatedMatch m n cs) := by
  intro inj hi a b e
  simp only [repeatedMatch] at e
  split at e
  · simp at e
  · rename_i a1 h1; simp at e; subst e; exact repLoop_steps H hm _ _ _ _ h1
  · rename_i a1 h1
    exact H.trans _ _ _ (repLoop_steps H hm _ _ _ _ h1) (dfs_steps H cs [] hc (by simp) _ _ e)

theorem growLoop_steps {m : K} (hm : SK T m) : ∀ (n k : Nat) (a b : St) (f : Nat), growLoop m n k a = some (f, b) → T a b := by
  intro n
  induction n with
  | zero => intro k a b f e; simp [growLoop] at e; rw [e.2]; exact H.refl _
  | succ n ih =>
    intro k a b f e
    simp only [growLoop] at e
    split at e
    · simp at e
    · rename_i a1 h1
      have t1 := hm a a1 h1
      split at e
      · exact H.trans _ _ _ t1 (ih _ _ _ _ e)
      · simp at e; rw [← e.2]; exact H.trans _ _ _ t1 (H.flag _ _)

theorem scanBack_steps {m : K} (hm : SK T m) : ∀ (n : Nat) (it : Int), SK T (scanBack m n it) := by
  intro n
  induction n with
  | zero => intro it a b e; simp [scanBack] at e; subst e; exact H.refl _
  | succ n ih =>
    intro it a b e
    simp only [scanBack] at e
    split at e
    · simp at e
    · rename_i a1 h1
      have t1 := H.trans _ _ _ (H.mv a it) (hm _ _ h1)
      split at e
      · simp at e; subst e; exact H.trans _ _ _ t1 (H.mv _ _)
      · exact H.trans _ _ _ t1 (ih _ _ _ e)

theorem btLoop_steps {bt m : K} (hb : SK T bt) (hm : SK T m) (start : Int) : ∀ (n : Nat) (a b : St) (f : Bool),
    btLoop bt m start n a = some (f, b) → T a b := by
  intro n
  induction n with
  | zero => intro a b f e; simp [btLoop] at e; rw [e.2]; exact H.refl _
  | succ n ih =>
    intro a b f e
    simp only [btLoop] at e
    split at e
    · simp at e
    · rename_i a1 h1
      have t1 := hb a a1 h1
      split at e
      · simp at e; rw [← e.2]; exact t1
      · split at e
        · simp at e
        · rename_i a2 h2
          exact H.trans _ _ _ t1 (H.trans _ _ _ (scanBack_steps H hm _ _ _ _ h2) (ih _ _ _ e))

theorem backtrack_steps {cs : List M} {inj : List K} (hc : ∀ f ∈ cs, SM T f) (hi : ∀ k ∈ inj, SK T k) :
    SK T (greedyBacktrack cs inj) := by
  intro a b e
  simp only [greedyBacktrack] at e
  split at e
  · split at e
    · simp at e
    · rename_i a1 h1
      simp at e; subst e
      exact H.trans _ _ _ (dfsInj_steps H hi a a1 h1) (H.mv _ _)
  · exact dfs_steps H cs [] hc (by simp) a b e

theorem optional_steps {m : K} {w : Nat} {cs : List M} (hm : SK T m) (hc : ∀ f ∈ cs, SM T f) :
    SM T (optionalMatch m w cs) := by
  intro inj hi a b e
  simp only [optionalMatch] at e
  split at e
  · simp at e
  · rename_i a1 h1
    split at e
    · simp at e
    · rename_i a2 h2
      have t2 := H.trans _ _ _ (hm _ _ h1) (backtrack_steps H hc hi _ _ h2)
      split at e
      · exact H.trans _ _ _ t2 (H.trans _ _ _ (H.mv a2 _) (backtrack_steps H hc hi _ _ e))
      · simp at e; subst e; exact t2

theorem greedy_steps {m : K} {lo hi : Nat} {cs : List M} (hm : SK T m) (hc : ∀ f ∈ cs, SM T f) :
    SM T (greedyMatch m lo hi cs) := by
  intro inj hi' a b e
  simp only [greedyMatch] at e
  split at e
  · simp at e
  · rename_i a1 h1; simp at e; subst e; exact repLoop_steps H hm _ _ _ _ h1
  · rename_i a1 h1
    have t1 := repLoop_steps H hm _ _ _ _ h1
    split at e
    · simp at e
    · rename_i k a2 h2
      have t2 := H.trans _ _ _ t1 (growLoop_steps H hm _ _ _ _ _ h2)
      split at e
      · simp at e
      · rename_i a3 h3
        simp at e; subst e
        exact H.trans _ _ _ t2 (btLoop_steps H (backtrack_steps H hc hi') hm _ _ _ _ _ h3)
      · rename_i a3 h3
        have t3 := H.trans _ _ _ t2 (btLoop_steps H (backtrack_steps H hc hi') hm _ _ _ _ _ h3)
        exact H.trans _ _ _ t3 (H.trans _ _ _ (H.flag a3 true) (dfs_steps H cs [] hc (by simp) _ _ e))

theorem lazyLoop_steps {cx : Ctx} {m : K} {cs : List M} {inj : List K} {start : Int} (hm : SK T m)
    (hc : ∀ f ∈ cs, SM T f) (hi : ∀ k ∈ inj, SK T k) : ∀ (n : Nat) (a b : St) (f : Bool),
    lazyLoop cx m cs inj start n a = some (f, b) → T a b := by
  intro n
  induction n with
  | zero => intro a b f e; simp [lazyLoop] at e; rw [e.2]; exact H.refl _
  | succ n ih =>
    intro a b f e
    simp only [lazyLoop] at e
    split at e
    · split at e
      · split at e
        · simp at e
        · rename_i a1 h1
          have t1 := dfsInj_steps H hi a a1 h1
          split at e
          · simp at e; rw [← e.2]; exact H.trans _ _ _ t1 (H.mv _ _)
          · split at e
            · simp at e
            · rename_i a2 h2
              have t2 := H.trans _ _ _ t1 (H.trans _ _ _ (H.mv a1 _) (hm _ _ h2))
              split at e
              · exact H.trans _ _ _ t2 (ih _ _ _ e)
              · simp at e; rw [← e.2]; exact H.trans _ _ _ t2 (H.mv _ _)
      · split at e
        · simp at e
        · rename_i a1 h1
          have t1 := dfs_steps H cs [] hc (by simp) a a1 h1
          split at e
          · simp at e; rw [← e.2]; exact t1
          · split at e
            · simp at e
            · rename_i a2 h2
              have t2 := H.trans _ _ _ t1 (hm _ _ h2)
              split at e
              · exact H.trans _ _ _ t2 (ih _ _ _ e)
              · simp at e; rw [← e.2]; exact H.trans _ _ _ t2 (H.mv _ _)
    · simp at e; rw [e.2]; exact H.refl _

theorem lazy_steps {cx : Ctx} {m : K} {lo hi : Nat} {cs : List M} (hm : SK T m) (hc : ∀ f ∈ cs, SM T f) :
    SM T (lazyMatch cx m lo hi cs) := by
  intro inj hi' a b e
  simp only [lazyMatch] at e
  split at e
  · simp at e
  · rename_i a1 h1; simp at e; subst e; exact repLoop_steps H hm _ _ _ _ h1
  · rename_i a1 h1
    have t1 := repLoop_steps H hm _ _ _ _ h1
    split at e
    · simp at e
    · rename_i a2 h2
      simp at e; subst e
      exact H.trans _ _ _ t1 (lazyLoop_steps H hm hc hi' _ _ _ _ h2)
    · rename_i a2 h2
      exact H.trans _ _ _ t1 (H.trans _ _ _ (lazyLoop_steps H hm hc hi' _ _ _ _ h2) (dfs_steps H cs [] hc (by simp) _ _ e))

theorem possLoop_steps {m : K} {lo : Nat} (hm : SK T m) : ∀ (n i : Nat) (last : Int) (a b : St) (f : Bool),
    possLoop m lo n i last a = some (f, b) → T a b := by
  intro n
  induction n with
  | zero => intro i last a b f e; simp [possLoop] at e; rw [e.2]; exact H.refl _
  | succ n ih =>
    intro i last a b f e
    simp only [possLoop] at e
    split at e
    · simp at e
    · rename_i a1 h1
      have t1 := hm a a1 h1
      split at e
      · exact H.trans _ _ _ t1 (ih _ _ _ _ _ e)
      · split at e <;> simp at e <;> rw [← e.2]
        · exact t1
        · exact H.trans _ _ _ t1 (H.upd _ _ _)

theorem possessive_steps {m : M} {lo hi : Nat} {cs : List M} (hm : SM T m) (hc : ∀ f ∈ cs, SM T f) :
    SM T (possessiveMatch m lo hi cs) := by
  intro inj hi' a b e
  simp only [possessiveMatch] at e
  split at e
  · simp at e
  · rename_i a1 h1; simp at e; subst e; exact possLoop_steps H (hm inj hi') _ _ _ _ _ _ h1
  · rename_i a1 h1
    exact H.trans _ _ _ (possLoop_steps H (hm inj hi') _ _ _ _ _ _ h1) (dfs_steps H cs [] hc (by simp) _ _ e)

theorem group_steps {m : M} {idx : Nat} {cs : List M} (hidx : idx ∈ I) (hm : SM T m) (hc : ∀ f ∈ cs, SM T f) :
    SM T (groupMatch m idx cs) := by
  intro inj hi a b e
  have hown : ∀ k ∈ cs.map (fun c => c []), SK T k := by
    intro k hk
    simp only [List.mem_map] at hk
    obtain ⟨c, hcm, rfl⟩ := hk
    exact hc c hcm [] (by simp)
  simp only [groupMatch] at e
  split at e
  · simp at e
  · rename_i a1 h1
    have t1 := hm _ hown a a1 h1
    split at e
    · split at e
      · refine H.trans _ _ _ t1 (H.trans _ _ _ (H.cap a1 idx _ hidx) (dfs_steps H cs _ hc ?_ _ _ e))
        intro k hk
        rcases List.mem_append.1 hk with hk | hk
        · exact hown k hk
        · exact hi k hk
      · simp at e
    · simp at e; subst e; exact t1

end

mutual
/-- The state after a match is reachable by steps from the state before. -/
theorem run_steps {I : List Nat} {T : St → St → Prop} (H : Steps I T) (cx : Ctx) :
    ∀ t : Node, (∀ i ∈ slots t, i ∈ I) → SM T (run cx t)
  | .exact s d, _ => by intro inj _; simp only [run]; exact guarded_steps H (exact_steps H)
  | .range .., _ => by intro inj _; simp only [run]; exact guarded_steps H (oneChar_steps H)
  | .word, _ => by intro inj _; simp only [run]; exact guarded_steps H (oneChar_steps H)
  | .any, _ => by intro inj _; simp only [run]; exact guarded_steps H (oneChar_steps H)
  | .space, _ => by intro inj _; simp only [run]; exact guarded_steps H (space_steps H)
  | .bos, _ => by intro inj _; simp only [run]; exact bos_steps H
  | .eol, _ => by intro inj _; simp only [run]; exact eol_steps H
  | .negated m, h => by
    intro inj _; simp only [run]
    exact negated_steps H (run_steps H cx m (by simpa [slots] using h) [] (by simp))
  | .simple m cs, hs => by
    simp only [run]; simp only [slots, List.mem_append] at hs
    exact simple_steps H (run_steps H cx m (fun i hi => hs i (Or.inl hi)) [] (by simp))
      (runs_steps H cx cs (fun i hi => hs i (Or.inr hi)))
  | .alt cs, hs => by
    simp only [run]; simp only [slots] at hs
    intro inj hi
    exact dfs_steps H _ _ (runs_steps H cx cs hs) hi
  | .greedy m lo hi cs, hs => by
    simp only [run]; simp only [slots, List.mem_append] at hs
    split
    · exact optional_steps H (run_steps H cx m (fun i hi => hs i (Or.inl hi)) [] (by simp))
        (runs_steps H cx cs (fun i hi => hs i (Or.inr hi)))
    · exact greedy_steps H (run_steps H cx m (fun i hi => hs i (Or.inl hi)) [] (by simp))
        (runs_steps H cx cs (fun i hi => hs i (Or.inr hi)))
  | .lazy m lo hi cs, hs => by
    simp only [run]; simp only [slots, List.mem_append] at hs
    exact lazy_steps H (run_steps H cx m (fun i hi => hs i (Or.inl hi)) [] (by simp))
      (runs_steps H cx cs (fun i hi => hs i (Or.inr hi)))
  | .possessive m lo hi cs, hs => by
    simp only [run]; simp only [slots, List.mem_append] at hs
    exact possessive_steps H (run_steps H cx m (fun i hi => hs i (Or.inl hi)))
      (runs_steps H cx cs (fun i hi => hs i (Or.inr hi)))
  | .repeated m n cs, hs => by
    simp only [run]; simp only [slots, List.mem_append] at hs
    exact repeated_steps H (run_steps H cx m (fun i hi => hs i (Or.inl hi)) [] (by simp))
      (runs_steps H cx cs (fun i hi => hs i (Or.inr hi)))
  | .group m idx cs, hs => by
    simp only [run]; simp only [slots, List.mem_cons, List.mem_append] at hs
    exact group_steps H (hs idx (Or.inl rfl)) (run_steps H cx m (fun i hi => hs i (Or.inr (Or.inl hi))))
      (runs_steps H cx cs (fun i hi => hs i (Or.inr (Or.inr hi))))
theorem runs_steps {I : List Nat} {T : St → St → Prop} (H : Steps I T) (cx : Ctx) :
    ∀ cs : List Node, (∀ i ∈ slotss cs, i ∈ I) → ∀ f ∈ runs cx cs, SM T f
  | [], _ => by simp [runs]
  | c :: cs, hs => by
    simp only [slotss, List.mem_append] at hs
    intro f hf
    simp only [runs, List.mem_cons] at hf
    rcases hf with rfl | hf
    · exact run_steps H cx c (fun i hi => hs i (Or.inl hi))
    · exact runs_steps H cx cs (fun i hi => hs i (Or.inr hi)) f hf
end

/-- A match attempt does not move its own start. -/
theorem run_start (cx : Ctx) (t : Node) (st st' : St) (h : run cx t [] st = some st') : st'.start = st.start := by
  have H : Steps (slots t) (fun a b => b.start = a.start) :=
    ⟨fun _ => rfl, fun _ _ _ h1 h2 => h2.trans h1, fun _ _ _ => rfl, fun _ _ _ _ => rfl⟩
  exact run_steps H cx t (fun _ h => h) [] (by simp) st st' h

end ERegex

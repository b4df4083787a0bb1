import Verif.Model.Match
import Verif.Proofs.Optimize
/-!
# The engine looks at the capture array only to write it

A relational induction over the tree: related states (same start, position and flag; capture arrays related by `R`) go to
related states, for every relation `R` that the tree's capture writes respect.
-/
set_option autoImplicit false
namespace ERegex
open Spec

/-- Relation between capture arrays. -/
abbrev GRel := List (Option (Int × Int)) → List (Option (Int × Int)) → Prop

/-- States equal up to the capture arrays. -/
def RSt (R : GRel) (a b : St) : Prop :=
  a.start = b.start ∧ a.pos = b.pos ∧ a.accepted = b.accepted ∧ R a.groups b.groups

/-- Outcomes equal up to the capture arrays. -/
def ROpt (R : GRel) : Option St → Option St → Prop
  | none, none => True
  | some a, some b => RSt R a b
  | _, _ => False

/-- A function that respects the relation. -/
def RK (R : GRel) (k : K) : Prop := ∀ a b, RSt R a b → ROpt R (k a) (k b)

/-- A node that respects the relation if its injected children do. -/
def RM (R : GRel) (f : M) : Prop := ∀ inj, (∀ k ∈ inj, RK R k) → RK R (f inj)

/-- A capture write that respects the relation. -/
def WriteOk (R : GRel) (idx : Nat) : Prop :=
  ∀ g h v, R g h → ((idx < g.length ↔ idx < h.length) ∧ (idx < g.length → R (g.set idx v) (h.set idx v)))

section
variable {R : GRel}

theorem ROpt.cases {x y : Option St} (h : ROpt R x y) :
    (x = none ∧ y = none) ∨ ∃ a b, x = some a ∧ y = some b ∧ RSt R a b := by
  cases x <;> cases y <;> simp [ROpt] at h
  · left; exact ⟨rfl, rfl⟩
  · right; exact ⟨_, _, rfl, rfl, h⟩

theorem RSt.mk' {s s' p p' : Int} {g h : List (Option (Int × Int))} {x y : Bool} (h1 : s = s') (h2 : p = p') (h3 : x = y)
    (h4 : R g h) : RSt R ⟨s, p, g, x⟩ ⟨s', p', h, y⟩ := ⟨h1, h2, h3, h4⟩

theorem dfs_rel : ∀ (cs : List M) (inj : List K), (∀ f ∈ cs, RM R f) → (∀ k ∈ inj, RK R k) → RK R (dfs cs inj) := by
  intro cs
  induction cs with
  | nil => intro inj _ _ a b h; simpa [dfs, ROpt] using h
  | cons f cs ih =>
    intro inj hc hi a b h
    have hf := hc f (by simp) inj hi a b h
    cases cs with
    | nil => simpa [dfs] using hf
    | cons g cs =>
      simp only [dfs]
      rcases hf.cases with ⟨e1, e2⟩ | ⟨a', b', e1, e2, hr⟩
      · simp [e1, e2, ROpt]
      · simp only [e1, e2]
        have hacc := hr.2.2.1
        rw [← hacc]
        by_cases ha : a'.accepted = true
        · simpa [ha, ROpt] using hr
        · simp only [ha]
          exact ih [] (fun f hf => hc f (by simp [hf])) (by simp) _ _ ⟨hr.1, hr.2.1, rfl, hr.2.2.2⟩

theorem dfsInj_rel {inj : List K} (hi : ∀ k ∈ inj, RK R k) : RK R (dfsInj inj) := by
  refine dfs_rel _ _ ?_ (by simp)
  intro f hf
  simp only [List.mem_map] at hf
  obtain ⟨k, hk, rfl⟩ := hf
  intro _ _
  exact hi k hk

theorem guarded_rel {cx : Ctx} {m : K} (h : RK R m) : RK R (guarded cx m) := by
  intro a b hab
  simp only [guarded]
  rw [← hab.2.1]
  split
  · exact ⟨hab.1, by first | rfl | exact hab.2.1, rfl, hab.2.2.2⟩
  · exact h a b hab

theorem oneChar_rel {cx : Ctx} {p : Int → Bool} : RK R (oneChar cx p) := by
  intro a b hab
  simp only [oneChar]
  rw [← hab.2.1]
  split
  · trivial
  · split
    · exact ⟨hab.1, rfl, rfl, hab.2.2.2⟩
    · exact ⟨hab.1, by first | rfl | exact hab.2.1, rfl, hab.2.2.2⟩

theorem space_rel {cx : Ctx} : RK R (spaceMatch cx) := by
  intro a b hab
  simp only [spaceMatch]
  rw [← hab.2.1]
  split
  · trivial
  · exact ⟨hab.1, rfl, rfl, hab.2.2.2⟩

theorem exactLoop_rel {cx : Ctx} (start : Int) : ∀ s : List Int, RK R (exactLoop cx start s) := by
  intro s
  induction s with
  | nil => intro a b h; simpa [exactLoop, ROpt] using h
  | cons c s ih =>
    intro a b hab
    simp only [exactLoop]
    rw [← hab.2.1]
    split
    · trivial
    · split
      · exact ⟨hab.1, rfl, rfl, hab.2.2.2⟩
      · exact ih _ _ ⟨hab.1, rfl, hab.2.2.1, hab.2.2.2⟩

theorem exact_rel {cx : Ctx} {s : List Int} : RK R (exactMatch cx s) := by
  intro a b hab
  simp only [exactMatch]
  rw [← hab.2.1]
  exact exactLoop_rel _ _ _ _ ⟨hab.1, by first | rfl | exact hab.2.1, rfl, hab.2.2.2⟩

theorem bos_rel {cx : Ctx} : RK R (bosMatch cx) := by
  intro a b hab
  simp only [bosMatch]
  rw [← hab.2.1]
  split <;> exact ⟨hab.1, by first | rfl | exact hab.2.1, rfl, hab.2.2.2⟩

theorem eol_rel {cx : Ctx} : RK R (eolMatch cx) := by
  intro a b hab
  simp only [eolMatch]
  rw [← hab.2.1]
  split
  · exact ⟨hab.1, by first | rfl | exact hab.2.1, rfl, hab.2.2.2⟩
  · split
    · trivial
    · split
      · exact ⟨hab.1, rfl, rfl, hab.2.2.2⟩
      · exact ⟨hab.1, by first | rfl | exact hab.2.1, rfl, hab.2.2.2⟩

theorem negated_rel {cx : Ctx} {m : K} (h : RK R m) : RK R (negatedMatch cx m) := by
  intro a b hab
  simp only [negatedMatch]
  rw [← hab.2.1]
  split
  · exact ⟨hab.1, by first | rfl | exact hab.2.1, rfl, hab.2.2.2⟩
  · rcases (h a b hab).cases with ⟨e1, e2⟩ | ⟨a', b', e1, e2, hr⟩
    · simp [e1, e2, ROpt]
    · simp only [e1, e2, ← hr.2.2.1]
      split
      · exact ⟨hr.1, hr.2.1, rfl, hr.2.2.2⟩
      · exact ⟨hr.1, by simp [hr.2.1], rfl, hr.2.2.2⟩

theorem simple_rel {m : K} {cs : List M} (hm : RK R m) (hc : ∀ f ∈ cs, RM R f) : RM R (simpleMatch m cs) := by
  intro inj hi a b hab
  simp only [simpleMatch]
  rcases (hm a b hab).cases with ⟨e1, e2⟩ | ⟨a', b', e1, e2, hr⟩
  · simp [e1, e2, ROpt]
  · simp only [e1, e2, ← hr.2.2.1]
    split
    · rcases (dfs_rel cs inj hc hi a' b' hr).cases with ⟨e1, e2⟩ | ⟨a'', b'', e1, e2, hr'⟩
      · simp [e1, e2, ROpt]
      · simp only [e1, e2, ← hr'.2.2.1]
        split
        · exact hr'
        · exact ⟨hr'.1, hab.2.1, rfl, hr'.2.2.2⟩
    · exact hr

/-- Outcomes of the loops. -/
def RLoop {α : Type} (R : GRel) : Option (α × St) → Option (α × St) → Prop
  | none, none => True
  | some (x, a), some (y, b) => x = y ∧ RSt R a b
  | _, _ => False

theorem RLoop.cases {α : Type} {x y : Option (α × St)} (h : RLoop R x y) :
    (x = none ∧ y = none) ∨ ∃ f a b, x = some (f, a) ∧ y = some (f, b) ∧ RSt R a b := by
  cases x <;> cases y <;> simp [RLoop] at h
  · left; exact ⟨rfl, rfl⟩
  · rename_i p q
    obtain ⟨f, a⟩ := p
    obtain ⟨g, b⟩ := q
    simp at h
    right; exact ⟨f, a, b, rfl, by rw [h.1], h.2⟩

theorem repLoop_rel {m : K} (hm : RK R m) : ∀ (n : Nat) (a b : St), RSt R a b → RLoop R (repLoop m n a) (repLoop m n b) := by
  intro n
  induction n with
  | zero => intro a b h; exact ⟨rfl, h⟩
  | succ n ih =>
    intro a b h
    simp only [repLoop]
    rcases (hm a b h).cases with ⟨e1, e2⟩ | ⟨a', b', e1, e2, hr⟩
    · simp [e1, e2, RLoop]
    · simp only [e1, e2, ← hr.2.2.1]
      split
      · exact ih _ _ hr
      · exact ⟨rfl, hr⟩

theorem repeated_rel {m : K} {n : Nat} {cs : List M} (hm : RK R m) (hc : ∀ f ∈ cs, RM R f) :
    RM R (repeatedMatch m n cs) := by
  intro inj hi a b hab
  simp only [repeatedMatch]
  rcases (repLoop_rel hm n a b hab).cases with ⟨e1, e2⟩ | ⟨f, a', b', e1, e2, hr⟩
  · simp [e1, e2, ROpt]
  · simp only [e1, e2]
    cases f with
    | false => exact hr
    | true => exact dfs_rel cs [] hc (by simp) _ _ hr

theorem growLoop_rel {m : K} (hm : RK R m) : ∀ (n k : Nat) (a b : St), RSt R a b →
    RLoop R (growLoop m n k a) (growLoop m n k b) := by
  intro n
  induction n with
  | zero => intro k a b h; exact ⟨rfl, h⟩
  | succ n ih =>
    intro k a b h
    simp only [growLoop]
    rcases (hm a b h).cases with ⟨e1, e2⟩ | ⟨a', b', e1, e2, hr⟩
    · simp [e1, e2, RLoop]
    · simp only [e1, e2, ← hr.2.2.1]
      split
      · exact ih _ _ _ hr
      · exact ⟨rfl, hr.1, hr.2.1, rfl, hr.2.2.2⟩

theorem scanBack_rel {m : K} (hm : RK R m) : ∀ (n : Nat) (it : Int), RK R (scanBack m n it) := by
  intro n
  induction n with
  | zero => intro it a b h; simpa [scanBack, ROpt] using h
  | succ n ih =>
    intro it a b h
    simp only [scanBack]
    have h' : RSt R { a with pos := it } { b with pos := it } := ⟨h.1, rfl, h.2.2.1, h.2.2.2⟩
    rcases (hm _ _ h').cases with ⟨e1, e2⟩ | ⟨a', b', e1, e2, hr⟩
    · simp [e1, e2, ROpt]
    · simp only [e1, e2, ← hr.2.2.1]
      split
      · exact ⟨hr.1, rfl, rfl, hr.2.2.2⟩
      · exact ih _ _ _ hr

theorem btLoop_rel {bt m : K} (hb : RK R bt) (hm : RK R m) (start : Int) : ∀ (n : Nat) (a b : St), RSt R a b →
    RLoop R (btLoop bt m start n a) (btLoop bt m start n b) := by
  intro n
  induction n with
  | zero => intro a b h; exact ⟨rfl, h⟩
  | succ n ih =>
    intro a b h
    simp only [btLoop]
    rcases (hb a b h).cases with ⟨e1, e2⟩ | ⟨a', b', e1, e2, hr⟩
    · simp [e1, e2, RLoop]
    · simp only [e1, e2, ← hr.2.2.1, ← hr.2.1]
      split
      · exact ⟨rfl, hr⟩
      · rcases (scanBack_rel hm (a'.pos - start).toNat (a'.pos - 1) a' b' hr).cases with ⟨e1, e2⟩ | ⟨a'', b'', e1, e2, hr'⟩
        · simp [e1, e2, RLoop]
        · simp only [e1, e2]; exact ih _ _ hr'

theorem backtrack_rel {cs : List M} {inj : List K} (hc : ∀ f ∈ cs, RM R f) (hi : ∀ k ∈ inj, RK R k) :
    RK R (greedyBacktrack cs inj) := by
  intro a b hab
  simp only [greedyBacktrack]
  split
  · rcases (dfsInj_rel hi a b hab).cases with ⟨e1, e2⟩ | ⟨a', b', e1, e2, hr⟩
    · simp [e1, e2, ROpt]
    · simp only [e1, e2]; exact ⟨hr.1, hab.2.1, hr.2.2.1, hr.2.2.2⟩
  · exact dfs_rel cs [] hc (by simp) a b hab

theorem optional_rel {m : K} {w : Nat} {cs : List M} (hm : RK R m) (hc : ∀ f ∈ cs, RM R f) :
    RM R (optionalMatch m w cs) := by
  intro inj hi a b hab
  simp only [optionalMatch]
  rcases (hm a b hab).cases with ⟨e1, e2⟩ | ⟨a1, b1, e1, e2, hr⟩
  · simp [e1, e2, ROpt]
  · simp only [e1, e2]
    rcases (backtrack_rel hc hi a1 b1 hr).cases with ⟨e1, e2⟩ | ⟨a2, b2, e1, e2, hr2⟩
    · simp [e1, e2, ROpt]
    · simp only [e1, e2, ← hr2.2.2.1, ← hr2.2.1, ← hr2.1]
      split
      · exact backtrack_rel hc hi _ _ ⟨rfl, rfl, rfl, hr2.2.2.2⟩
      · exact hr2

theorem greedy_rel {m : K} {lo hi : Nat} {cs : List M} (hm : RK R m) (hc : ∀ f ∈ cs, RM R f) :
    RM R (greedyMatch m lo hi cs) := by
  intro inj hi' a b hab
  simp only [greedyMatch]
  rcases (repLoop_rel hm lo a b hab).cases with ⟨e1, e2⟩ | ⟨f, a1, b1, e1, e2, hr⟩
  · simp [e1, e2, ROpt]
  · simp only [e1, e2]
    cases f with
    | false => exact hr
    | true =>
      simp only
      rcases (growLoop_rel hm (hi - lo) lo a1 b1 hr).cases with ⟨e1, e2⟩ | ⟨k, a2, b2, e1, e2, hr2⟩
      · simp [e1, e2, ROpt]
      · simp only [e1, e2, ← hr.2.1]
        rcases (btLoop_rel (backtrack_rel hc hi') hm a1.pos (k - lo) a2 b2 hr2).cases with
          ⟨e1, e2⟩ | ⟨f, a3, b3, e1, e2, hr3⟩
        · simp [e1, e2, ROpt]
        · simp only [e1, e2]
          cases f with
          | true => exact hr3
          | false => exact dfs_rel cs [] hc (by simp) _ _ ⟨hr3.1, hr3.2.1, rfl, hr3.2.2.2⟩

theorem lazyLoop_rel {cx : Ctx} {m : K} {cs : List M} {inj : List K} {start : Int} (hm : RK R m) (hc : ∀ f ∈ cs, RM R f)
    (hi : ∀ k ∈ inj, RK R k) : ∀ (n : Nat) (a b : St), RSt R a b →
    RLoop R (lazyLoop cx m cs inj start n a) (lazyLoop cx m cs inj start n b) := by
  intro n
  induction n with
  | zero => intro a b h; exact ⟨rfl, h⟩
  | succ n ih =>
    intro a b h
    simp only [lazyLoop]
    rw [← h.2.1]
    split
    · split
      · rcases (dfsInj_rel hi a b h).cases with ⟨e1, e2⟩ | ⟨a1, b1, e1, e2, hr⟩
        · simp [e1, e2, RLoop]
        · simp only [e1, e2, ← hr.2.2.1]
          split
          · exact ⟨rfl, hr.1, rfl, rfl, hr.2.2.2⟩
          · rcases (hm { a1 with pos := a.pos } { b1 with pos := a.pos, accepted := a1.accepted } ⟨hr.1, rfl, rfl, hr.2.2.2⟩).cases with
              ⟨e1, e2⟩ | ⟨a2, b2, e1, e2, hr2⟩
            · simp [e1, e2, RLoop]
            · simp only [e1, e2, ← hr2.2.2.1]
              split
              · exact ih _ _ hr2
              · exact ⟨rfl, hr2.1, rfl, rfl, hr2.2.2.2⟩
      · rcases (dfs_rel cs [] hc (by simp) a b h).cases with ⟨e1, e2⟩ | ⟨a1, b1, e1, e2, hr⟩
        · simp [e1, e2, RLoop]
        · simp only [e1, e2, ← hr.2.2.1]
          split
          · exact ⟨rfl, hr⟩
          · rcases (hm a1 b1 hr).cases with ⟨e1, e2⟩ | ⟨a2, b2, e1, e2, hr2⟩
            · simp [e1, e2, RLoop]
            · simp only [e1, e2, ← hr2.2.2.1]
              split
              · exact ih _ _ hr2
              · exact ⟨rfl, hr2.1, rfl, rfl, hr2.2.2.2⟩
    · exact ⟨rfl, h⟩

theorem lazy_rel {cx : Ctx} {m : K} {lo hi : Nat} {cs : List M} (hm : RK R m) (hc : ∀ f ∈ cs, RM R f) :
    RM R (lazyMatch cx m lo hi cs) := by
  intro inj hi' a b hab
  simp only [lazyMatch]
  rcases (repLoop_rel hm lo a b hab).cases with ⟨e1, e2⟩ | ⟨f, a1, b1, e1, e2, hr⟩
  · simp [e1, e2, ROpt]
  · simp only [e1, e2]
    cases f with
    | false => exact hr
    | true =>
      simp only [← hab.2.1]
      rcases (lazyLoop_rel (cx := cx) (start := a.pos) hm hc hi' (hi - lo) a1 b1 hr).cases with
        ⟨e1, e2⟩ | ⟨f, a2, b2, e1, e2, hr2⟩
      · simp [e1, e2, ROpt]
      · simp only [e1, e2]
        cases f with
        | true => exact hr2
        | false => exact dfs_rel cs [] hc (by simp) _ _ hr2

theorem possLoop_rel {m : K} {lo : Nat} (hm : RK R m) : ∀ (n i : Nat) (last : Int) (a b : St), RSt R a b →
    RLoop R (possLoop m lo n i last a) (possLoop m lo n i last b) := by
  intro n
  induction n with
  | zero => intro i last a b h; exact ⟨rfl, h⟩
  | succ n ih =>
    intro i last a b h
    simp only [possLoop]
    rcases (hm a b h).cases with ⟨e1, e2⟩ | ⟨a', b', e1, e2, hr⟩
    · simp [e1, e2, RLoop]
    · simp only [e1, e2, ← hr.2.2.1, ← hr.2.1]
      split
      · exact ih _ _ _ _ hr
      · split
        · exact ⟨rfl, hr⟩
        · exact ⟨rfl, hr.1, rfl, rfl, hr.2.2.2⟩

theorem possessive_rel {m : M} {lo hi : Nat} {cs : List M} (hm : RM R m) (hc : ∀ f ∈ cs, RM R f) :
    RM R (possessiveMatch m lo hi cs) := by
  intro inj hi' a b hab
  simp only [possessiveMatch, ← hab.2.1]
  rcases (possLoop_rel (lo := lo) (hm inj hi') hi 0 a.pos a b hab).cases with ⟨e1, e2⟩ | ⟨f, a1, b1, e1, e2, hr⟩
  · simp [e1, e2, ROpt]
  · simp only [e1, e2]
    cases f with
    | false => exact hr
    | true => exact dfs_rel cs [] hc (by simp) _ _ hr

theorem group_rel {m : M} {idx : Nat} {cs : List M} (hm : RM R m) (hc : ∀ f ∈ cs, RM R f) (hw : WriteOk R idx) :
    RM R (groupMatch m idx cs) := by
  intro inj hi a b hab
  simp only [groupMatch]
  have hown : ∀ k ∈ cs.map (fun c => c []), RK R k := by
    intro k hk
    simp only [List.mem_map] at hk
    obtain ⟨c, hcm, rfl⟩ := hk
    exact hc c hcm [] (by simp)
  rcases (hm _ hown a b hab).cases with ⟨e1, e2⟩ | ⟨a1, b1, e1, e2, hr⟩
  · simp [e1, e2, ROpt]
  · simp only [e1, e2, ← hr.2.2.1]
    split
    · have hwr := hw a1.groups b1.groups (some (a.pos, a1.pos)) hr.2.2.2
      by_cases hlt : idx < a1.groups.length
      · have hlt' := hwr.1.1 hlt
        simp only [hlt, hlt', if_true]
        refine dfs_rel cs _ hc ?_ _ _ ⟨hr.1, hr.2.1, rfl, ?_⟩
        · intro k hk
          rcases List.mem_append.1 hk with h | h
          · exact hown k h
          · exact hi k h
        · rw [← hab.2.1, ← hr.2.1]; exact hwr.2 hlt
      · have hlt' : ¬ idx < b1.groups.length := fun h => hlt (hwr.1.2 h)
        simp [hlt, hlt', ROpt]
    · exact hr

end

mutual
/-- Every tree respects every relation that its capture writes respect. -/
theorem run_rel (R : GRel) (cx : Ctx) : ∀ t : Node, (∀ i ∈ slots t, WriteOk R i) → RM R (run cx t)
  | .exact s d, _ => by intro inj _; simp only [run]; exact guarded_rel exact_rel
  | .range .., _ => by intro inj _; simp only [run]; exact guarded_rel oneChar_rel
  | .space, _ => by intro inj _; simp only [run]; exact guarded_rel space_rel
  | .word, _ => by intro inj _; simp only [run]; exact guarded_rel oneChar_rel
  | .any, _ => by intro inj _; simp only [run]; exact guarded_rel oneChar_rel
  | .bos, _ => by intro inj _; simp only [run]; exact bos_rel
  | .eol, _ => by intro inj _; simp only [run]; exact eol_rel
  | .negated m, h => by
    intro inj _; simp only [run]
    exact negated_rel (run_rel R cx m (by simpa [slots] using h) [] (by simp))
  | .simple m cs, h => by
    simp only [run]; simp only [slots, List.mem_append] at h
    exact simple_rel (run_rel R cx m (fun i hi => h i (Or.inl hi)) [] (by simp)) (runs_rel R cx cs (fun i hi => h i (Or.inr hi)))
  | .alt cs, h => by
    simp only [run]; simp only [slots] at h
    intro inj hi
    exact dfs_rel _ _ (runs_rel R cx cs h) hi
  | .greedy m lo hi cs, h => by
    simp only [run]; simp only [slots, List.mem_append] at h
    split
    · exact optional_rel (run_rel R cx m (fun i hi => h i (Or.inl hi)) [] (by simp)) (runs_rel R cx cs (fun i hi => h i (Or.inr hi)))
    · exact greedy_rel (run_rel R cx m (fun i hi => h i (Or.inl hi)) [] (by simp)) (runs_rel R cx cs (fun i hi => h i (Or.inr hi)))
  | .lazy m lo hi cs, h => by
    simp only [run]; simp only [slots, List.mem_append] at h
    exact lazy_rel (run_rel R cx m (fun i hi => h i (Or.inl hi)) [] (by simp)) (runs_rel R cx cs (fun i hi => h i (Or.inr hi)))
  | .possessive m lo hi cs, h => by
    simp only [run]; simp only [slots, List.mem_append] at h
    exact possessive_rel (run_rel R cx m (fun i hi => h i (Or.inl hi))) (runs_rel R cx cs (fun i hi => h i (Or.inr hi)))
  | .repeated m n cs, h => by
    simp only [run]; simp only [slots, List.mem_append] at h
    exact repeated_rel (run_rel R cx m (fun i hi => h i (Or.inl hi)) [] (by simp)) (runs_rel R cx cs (fun i hi => h i (Or.inr hi)))
  | .group m idx cs, h => by
    simp only [run]; simp only [slots, List.mem_cons, List.mem_append] at h
    exact group_rel (run_rel R cx m (fun i hi => h i (Or.inr (Or.inl hi))))
      (runs_rel R cx cs (fun i hi => h i (Or.inr (Or.inr hi)))) (h idx (Or.inl rfl))
theorem runs_rel (R : GRel) (cx : Ctx) : ∀ cs : List Node, (∀ i ∈ slotss cs, WriteOk R i) → ∀ f ∈ runs cx cs, RM R f
  | [], _ => by simp [runs]
  | c :: cs, h => by
    simp only [slotss, List.mem_append] at h
    intro f hf
    simp only [runs, List.mem_cons] at hf
    rcases hf with rfl | hf
    · exact run_rel R cx c (fun i hi => h i (Or.inl hi))
    · exact runs_rel R cx cs (fun i hi => h i (Or.inr hi)) f hf
end

/-! ## consequences -/

/-- A larger capture array changes nothing but stays untouched at its end, when every slot of the tree is inside the array. -/
theorem run_extend (cx : Ctx) (t : Node) (st : St) (extra : List (Option (Int × Int)))
    (h : ∀ i ∈ slots t, i < st.groups.length) :
    run cx t [] { st with groups := st.groups ++ extra } =
      (run cx t [] st).map (fun st' => { st' with groups := st'.groups ++ extra }) := by
  have hrel := run_rel (fun g g' => g.length = st.groups.length ∧ g' = g ++ extra) cx t
    (by
      intro i hi g g' v hg
      obtain ⟨h1, rfl⟩ := hg
      have := h i hi
      refine ⟨by simp; omega, fun hl => ⟨by simp [h1], ?_⟩⟩
      rw [List.set_append_left _ _ hl]) [] (by simp) st { st with groups := st.groups ++ extra } ⟨rfl, rfl, rfl, rfl, rfl⟩
  rcases hrel.cases with ⟨e1, e2⟩ | ⟨a, b, e1, e2, hr⟩
  · rw [e1, e2]; rfl
  · rw [e1, e2]
    obtain ⟨h1, h2, h3, _, h5⟩ := hr
    obtain ⟨s, p, g, ac⟩ := a
    obtain ⟨s', p', g', ac'⟩ := b
    simp only at h1 h2 h3 h5
    simp [h1, h2, h3, h5]

/-- The number of slots never changes. -/
theorem run_groups_length (cx : Ctx) (t : Node) (st st' : St) (h : run cx t [] st = some st') :
    st'.groups.length = st.groups.length := by
  have hrel := run_rel (fun g g' => g = g' ∧ g.length = st.groups.length) cx t
    (by intro i _ g g' v hg; obtain ⟨rfl, h1⟩ := hg; exact ⟨Iff.rfl, fun _ => ⟨rfl, by simp [h1]⟩⟩)
    [] (by simp) st st ⟨rfl, rfl, rfl, rfl, rfl⟩
  rw [h] at hrel
  exact hrel.2.2.2.2

/-- Slots that the tree does not own are never written. -/
theorem run_groups_frame (cx : Ctx) (t : Node) (st st' : St) (h : run cx t [] st = some st') (j : Nat) (hj : j ∉ slots t) :
    st'.groups[j]? = st.groups[j]? := by
  have hrel := run_rel (fun g g' => g = g' ∧ g[j]? = st.groups[j]?) cx t
    (by
      intro i hi g g' v hg
      obtain ⟨rfl, h1⟩ := hg
      refine ⟨Iff.rfl, fun _ => ⟨rfl, ?_⟩⟩
      have hne : i ≠ j := fun e => hj (e ▸ hi)
      rw [List.getElem?_set_ne hne]; exact h1)
    [] (by simp) st st ⟨rfl, rfl, rfl, rfl, rfl⟩
  rw [h] at hrel
  exact hrel.2.2.2.2

end ERegex

import Verif.Proofs.CommitGo
/-!
# What a part of a pattern captures does not depend on what has been captured before; captured twice is captured once
-/
set_option autoImplicit false
namespace ERegex
open ERegex.Spec

/-- The captures `c`, painted over with `d`. -/
def paint (d c : Caps) : Caps := fun n => (d n).or (c n)

theorem paint_paint (d d' c : Caps) : paint d (paint d' c) = paint (paint d d') c := by
  funext n; simp only [paint]; cases d n <;> rfl

theorem paint_none (c : Caps) : paint (fun _ => none) c = c := by
  funext n; rfl

theorem paint_with (d c : Caps) (j i e : Nat) : (paint d c).with j i e = paint (d.with j i e) c := by
  funext n; simp only [paint, Caps.with]; split <;> rfl

theorem paint_twice (d c : Caps) (j i e : Nat) : paint d ((paint d c).with j i e) = paint d (c.with j i e) := by
  funext n
  simp only [paint, Caps.with]
  cases d n with
  | some x => rfl
  | none => split <;> rfl

/-- The matcher paints, whatever has been captured before, the same over it. -/
def Paints (g : Nat → Caps → Option Way) : Prop := ∀ i, (∀ c, g i c = none) ∨ ∃ e d, ∀ c, g i c = some (e, paint d c)

theorem Paints.twice {g : Nat → Caps → Option Way} (h : Paints g) {p : Nat} {c : Caps} {v : Way} (e : g p c = some v) (j i e' : Nat) :
    g p (v.2.with j i e') = g p (c.with j i e') := by
  rcases h p with h1 | ⟨x, d, h1⟩
  · rw [h1] at e; cases e
  · rw [h1] at e; cases e
    rw [h1, h1]
    simp only [paint_twice]

theorem must_paints {g : Nat → Caps → Option Way} (h : Paints g) : ∀ (n i : Nat), (∀ c, mustG g n (i, c) = none) ∨ ∃ e d, ∀ c, mustG g n (i, c) = some (e, paint d c)
  | 0, i => .inr ⟨i, fun _ => none, fun c => by simp [mustG, paint_none]⟩
  | n + 1, i => by
    simp only [mustG]
    rcases h i with h1 | ⟨e, d, h1⟩
    · exact .inl (fun c => by rw [h1]; rfl)
    · rcases must_paints h n e with h2 | ⟨e', d', h2⟩
      · exact .inl (fun c => by rw [h1]; exact h2 _)
      · exact .inr ⟨e', paint d' d, fun c => by rw [h1, Option.bind_some, h2, paint_paint]⟩

theorem grow_paints {g : Nat → Caps → Option Way} (h : Paints g) : ∀ (n i : Nat), ∃ e d, ∀ c, growG g n (i, c) = (e, paint d c)
  | 0, i => ⟨i, fun _ => none, fun c => by simp [growG, paint_none]⟩
  | n + 1, i => by
    simp only [growG]
    rcases h i with h1 | ⟨e, d, h1⟩
    · exact ⟨i, fun _ => none, fun c => by rw [h1, paint_none]⟩
    · obtain ⟨e', d', h2⟩ := grow_paints h n e
      exact ⟨e', paint d' d, fun c => by rw [h1]; simp only [h2, paint_paint]⟩

theorem quant_paints {g : Nat → Caps → Option Way} (h : Paints g) (k : Quant) (len i : Nat) :
    (∀ c, k.go len g (i, c) = none) ∨ ∃ e d, ∀ c, k.go len g (i, c) = some (e, paint d c) := by
  simp only [Quant.go]
  rcases must_paints h k.lo i with h1 | ⟨e, d, h1⟩
  · exact .inl (fun c => by rw [h1]; rfl)
  · obtain ⟨e', d', h2⟩ := grow_paints h (k.extra len) e
    exact .inr ⟨e', paint d' d, fun c => by rw [h1, Option.map_some, h2, paint_paint]⟩

theorem one_paints (q : List Int) (S : Int → Bool) : Paints (oneG q S) := by
  intro i
  unfold oneG
  cases q[i]? with
  | none => exact .inl (fun _ => rfl)
  | some x =>
    by_cases h : S x = true
    · exact .inr ⟨i + 1, fun _ => none, fun c => by simp [h, paint_none]⟩
    · exact .inl (fun c => by simp [h])

mutual
theorem atom_paints (q : List Int) : ∀ (a : Atom) (n : Nat), Paints (a.go q n)
  | .group true as, n => fun i => by
    simp only [Atom.go, if_true]
    rcases alts_paints q as (n + 1) i with h | ⟨e, d, h⟩
    · exact .inl (fun c => by rw [h]; rfl)
    · exact .inr ⟨e, d.with n i e, fun c => by rw [h, Option.map_some, paint_with]⟩
  | .group false as, n => fun i => by
    simp only [Atom.go, Bool.false_eq_true, if_false]
    exact alts_paints q as n i
  | .chr x, n => one_paints q _
  | .esc x, n => one_paints q _
  | .dot, n => one_paints q _
  | .hex x y, n => one_paints q _
  | .oct x y z, n => one_paints q _
  | .cls neg items dash, n => one_paints q _
theorem sq_paints (q : List Int) : ∀ (s : Sq) (n : Nat), Paints (s.go q n)
  | .nil d, n => fun i => by
    simp only [Sq.go]
    cases ((Sq.nil d).picks q i).head? with
    | none => exact .inl (fun _ => rfl)
    | some e => exact .inr ⟨e, fun _ => none, fun c => by rw [paint_none]; rfl⟩
  | .cons a k s, n => fun i => by
    simp only [Sq.go]
    rcases quant_paints (atom_paints q a n) k q.length i with h1 | ⟨e, d, h1⟩
    · exact .inl (fun c => by rw [h1]; rfl)
    · rcases sq_paints q s (n + a.count) e with h2 | ⟨e', d', h2⟩
      · exact .inl (fun c => by rw [h1]; exact h2 _)
      · exact .inr ⟨e', paint d' d, fun c => by rw [h1, Option.bind_some, h2, paint_paint]⟩
theorem alts_paints (q : List Int) : ∀ (as : Alts) (n : Nat), Paints (as.go q n)
  | .last hat s, n => fun i => by
    simp only [Alts.go]
    cases hat && i != 0
    · exact sq_paints q s n i
    · exact .inl (fun _ => rfl)
  | .more hat s as, n => fun i => by
    simp only [Alts.go]
    cases hat && i != 0
    · simp only [Bool.false_eq_true, if_false]
      rcases sq_paints q s n i with h1 | ⟨e, d, h1⟩
      · rcases alts_paints q as (n + s.count) i with h2 | ⟨e, d, h2⟩
        · exact .inl (fun c => by rw [h1, h2])
        · exact .inr ⟨e, d, fun c => by rw [h1, h2]⟩
      · exact .inr ⟨e, d, fun c => by rw [h1]⟩
    · exact alts_paints q as (n + s.count) i
end

end ERegex

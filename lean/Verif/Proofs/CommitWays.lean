import Verif.Spec.Commit
import Verif.Proofs.Prefer
/-!
# Patterns in which no choice has to be undone: a matcher without backtracking finds the preferred way
-/
set_option autoImplicit false
namespace ERegex
open ERegex.Spec

/-! ## a matcher without backtracking -/

/-- `n` repetitions. -/
def mustG (g : Nat → Caps → Option Way) : Nat → Way → Option Way
  | 0, w => some w
  | n + 1, w => (g w.1 w.2).bind (mustG g n)

/-- As many repetitions as possible, at most `f`. -/
def growG (g : Nat → Caps → Option Way) : Nat → Way → Way
  | 0, w => w
  | f + 1, w => match g w.1 w.2 with
    | none => w
    | some v => growG g f v

/-- A quantified part. -/
def Spec.Quant.go (len : Nat) (k : Quant) (g : Nat → Caps → Option Way) (w : Way) : Option Way := (mustG g k.lo w).map (growG g (k.extra len))

/-- One character. -/
def oneG (q : List Int) (S : Int → Bool) (i : Nat) (c : Caps) : Option Way :=
  match q[i]? with
  | none => none
  | some x => if S x then some (i + 1, c) else none

mutual
def Spec.Atom.go (q : List Int) (n : Nat) : Atom → Nat → Caps → Option Way
  | .group capture as, i, c =>
    if capture then (as.go q (n + 1) i c).map (fun w => (w.1, w.2.with n i w.1)) else as.go q n i c
  | .chr x, i, c => oneG q (Atom.chr x).set i c
  | .esc x, i, c => oneG q (Atom.esc x).set i c
  | .dot, i, c => oneG q Atom.dot.set i c
  | .hex x y, i, c => oneG q (Atom.hex x y).set i c
  | .oct x y z, i, c => oneG q (Atom.oct x y z).set i c
  | .cls neg items dash, i, c => oneG q (Atom.cls neg items dash).set i c
def Spec.Sq.go (q : List Int) (n : Nat) : Sq → Nat → Caps → Option Way
  | .nil dollar, i, c => ((Sq.nil dollar).picks q i).head?.map (fun e => (e, c))
  | .cons a k s, i, c => (k.go q.length (a.go q n) (i, c)).bind (fun w => s.go q (n + a.count) w.1 w.2)
def Spec.Alts.go (q : List Int) (n : Nat) : Alts → Nat → Caps → Option Way
  | .last hat s, i, c => if hat && i != 0 then none else s.go q n i c
  | .more hat s as, i, c => match (if hat && i != 0 then none else s.go q n i c) with
    | some w => some w
    | none => as.go q (n + s.count) i c
end

theorem atom_go {a : Atom} (h : ∀ c as, a ≠ .group c as) (q : List Int) (n i : Nat) (c : Caps) : a.go q n i c = oneG q a.set i c := by
  cases a <;> first | rfl | exact absurd rfl (h _ _)

theorem atom_way {a : Atom} (h : ∀ c as, a ≠ .group c as) (q : List Int) (n i : Nat) (c : Caps) : a.ways q n i c = one q a.set i c := by
  cases a <;> first | rfl | exact absurd rfl (h _ _)

theorem atom_heads {a : Atom} (h : ∀ c as, a ≠ .group c as) (x : Int) : a.heads x = a.set x := by
  cases a <;> first | rfl | exact absurd rfl (h _ _)

theorem atom_flat {a : Atom} (h : ∀ c as, a ≠ .group c as) : a.feeds = true ∧ a.empties = false ∧ a.count = 0 := by
  cases a <;> first | exact ⟨rfl, rfl, rfl⟩ | exact absurd rfl (h _ _)

/-! ## ends of the ways -/

/-- Every way of a list goes from `i` to a position inside the text. -/
def EndsIn (q : List Int) (i : Nat) (feeds : Bool) (l : List Way) : Prop := ∀ w ∈ l, i ≤ w.1 ∧ w.1 ≤ q.length ∧ (feeds = true → i < w.1)

theorem must_ends {q : List Int} {B : Nat → Caps → List Way} {f : Bool} (hB : ∀ i c, i ≤ q.length → EndsIn q i f (B i c)) : ∀ (n : Nat) (w : Way), w.1 ≤ q.length →
    EndsIn q w.1 (n != 0 && f) (must B n w)
  | 0, w, h => by intro v hv; simp [must] at hv; subst hv; exact ⟨Nat.le_refl _, h, by simp⟩
  | n + 1, w, h => by
    intro v hv
    simp only [must, List.mem_flatMap] at hv
    obtain ⟨u, hu, hv⟩ := hv
    have h1 := hB w.1 w.2 h u hu
    have h2 := must_ends hB n u h1.2.1 v hv
    refine ⟨by omega, h2.2.1, fun hf => ?_⟩
    simp only [Nat.add_eq_zero_iff, Nat.succ_ne_self, and_false, ne_eq, not_false_eq_true, bne_iff_ne, Bool.and_eq_true] at hf
    have := h1.2.2 hf.2
    omega

theorem most_ends {q : List Int} {B : Nat → Caps → List Way} {f : Bool} (hB : ∀ i c, i ≤ q.length → EndsIn q i f (B i c)) : ∀ (n : Nat) (w : Way), w.1 ≤ q.length →
    EndsIn q w.1 false (manyMost B n w)
  | 0, w, h => by intro v hv; simp [manyMost] at hv; subst hv; exact ⟨Nat.le_refl _, h, by simp⟩
  | n + 1, w, h => by
    intro v hv
    simp only [manyMost, List.mem_append, List.mem_flatMap, List.mem_filter, List.mem_singleton] at hv
    rcases hv with ⟨u, ⟨hu, _⟩, hv⟩ | rfl
    · have h1 := hB w.1 w.2 h u hu
      have h2 := most_ends hB n u h1.2.1 v hv
      exact ⟨by omega, h2.2.1, by simp⟩
    · exact ⟨Nat.le_refl _, h, by simp⟩

theorem least_ends {q : List Int} {B : Nat → Caps → List Way} {f : Bool} (hB : ∀ i c, i ≤ q.length → EndsIn q i f (B i c)) : ∀ (n : Nat) (w : Way), w.1 ≤ q.length →
    EndsIn q w.1 false (manyLeast B n w)
  | 0, w, h => by intro v hv; simp [manyLeast] at hv; subst hv; exact ⟨Nat.le_refl _, h, by simp⟩
  | n + 1, w, h => by
    intro v hv
    simp only [manyLeast, List.mem_cons, List.mem_flatMap, List.mem_filter] at hv
    rcases hv with rfl | ⟨u, ⟨hu, _⟩, hv⟩
    · exact ⟨Nat.le_refl _, h, by simp⟩
    · have h1 := hB w.1 w.2 h u hu
      have h2 := least_ends hB n u h1.2.1 v hv
      exact ⟨by omega, h2.2.1, by simp⟩

theorem quant_ends {q : List Int} {B : Nat → Caps → List Way} {f : Bool} (hB : ∀ i c, i ≤ q.length → EndsIn q i f (B i c)) (k : Quant) (w : Way) (hw : w.1 ≤ q.length) :
    EndsIn q w.1 (k.lo != 0 && f) (k.ways q.length B w) := by
  have hm : EndsIn q w.1 (k.lo != 0 && f) ((must B k.lo w).flatMap (manyMost B (k.extra q.length))) := by
    intro v hv
    simp only [List.mem_flatMap] at hv
    obtain ⟨u, hu, hv⟩ := hv
    have h1 := must_ends hB k.lo w hw u hu
    have h2 := most_ends hB _ u h1.2.1 v hv
    exact ⟨by omega, h2.2.1, fun hf => by have := h1.2.2 hf; omega⟩
  intro v hv
  unfold Quant.ways at hv
  split at hv
  · exact hm v hv
  · simp only [List.mem_flatMap] at hv
    obtain ⟨u, hu, hv⟩ := hv
    have h1 := must_ends hB k.lo w hw u hu
    have h2 := least_ends hB _ u h1.2.1 v hv
    exact ⟨by omega, h2.2.1, fun hf => by have := h1.2.2 hf; omega⟩
  · exact hm v (List.mem_of_mem_take hv)

theorem one_ends (q : List Int) (S : Int → Bool) (i : Nat) (c : Caps) : EndsIn q i true (one q S i c) := by
  intro w hw
  unfold one at hw
  split at hw
  · simp at hw
  · rename_i x hx
    have := (List.getElem?_eq_some_iff.1 hx).1
    split at hw
    · simp only [List.mem_singleton] at hw; subst hw; exact ⟨Nat.le_succ _, this, fun _ => Nat.lt_succ_self _⟩
    · simp at hw

mutual
theorem atom_ends (q : List Int) : ∀ (a : Atom) (n i : Nat) (c : Caps), i ≤ q.length → EndsIn q i a.feeds (a.ways q n i c)
  | .group capture as, n, i, c, hi => by
    simp only [Atom.ways, Atom.feeds]
    split
    · intro w hw
      simp only [List.mem_map] at hw
      obtain ⟨v, hv, rfl⟩ := hw
      exact alts_ends q as (n + 1) i c hi v hv
    · exact alts_ends q as n i c hi
  | .chr x, n, i, c, hi => one_ends q _ i c
  | .esc x, n, i, c, hi => one_ends q _ i c
  | .dot, n, i, c, hi => one_ends q _ i c
  | .hex x y, n, i, c, hi => one_ends q _ i c
  | .oct x y z, n, i, c, hi => one_ends q _ i c
  | .cls neg items dash, n, i, c, hi => one_ends q _ i c
theorem sq_ends (q : List Int) : ∀ (s : Sq) (n i : Nat) (c : Caps), i ≤ q.length → EndsIn q i s.feeds (s.ways q n i c)
  | .nil dollar, n, i, c, hi => by
    intro w hw
    simp only [Sq.ways, List.mem_map] at hw
    obtain ⟨e, he, rfl⟩ := hw
    refine ⟨?_, ?_, by simp [Sq.feeds]⟩
    · cases dollar with
      | false => simp [Sq.picks] at he; omega
      | true =>
        simp only [Sq.picks] at he
        split at he
        · simp at he; omega
        · split at he
          · simp at he; omega
          · simp at he
    · cases dollar with
      | false => simp [Sq.picks] at he; omega
      | true =>
        simp only [Sq.picks] at he
        split at he
        · simp at he; omega
        · split at he
          · rename_i hx; have := (List.getElem?_eq_some_iff.1 hx).1; simp at he; omega
          · simp at he
  | .cons a k s, n, i, c, hi => by
    intro w hw
    simp only [Sq.ways, List.mem_flatMap] at hw
    obtain ⟨u, hu, hw⟩ := hw
    have h1 := quant_ends (fun i c hi => atom_ends q a n i c hi) k (i, c) hi u hu
    have h2 := sq_ends q s _ u.1 u.2 h1.2.1 w hw
    simp only at h1
    refine ⟨by omega, h2.2.1, fun hf => ?_⟩
    simp only [Sq.feeds, Bool.or_eq_true] at hf
    rcases hf with hf | hf
    · have := h1.2.2 hf; omega
    · have := h2.2.2 hf; omega
theorem alts_ends (q : List Int) : ∀ (as : Alts) (n i : Nat) (c : Caps), i ≤ q.length → EndsIn q i as.feeds (as.ways q n i c)
  | .last hat s, n, i, c, hi => by
    simp only [Alts.ways, Alts.feeds]
    split
    · intro w hw; simp at hw
    · exact sq_ends q s n i c hi
  | .more hat s as, n, i, c, hi => by
    intro w hw
    simp only [Alts.ways, List.mem_append] at hw
    rcases hw with hw | hw
    · split at hw
      · simp at hw
      · have := sq_ends q s n i c hi w hw
        exact ⟨this.1, this.2.1, fun hf => this.2.2 (by simp [Alts.feeds] at hf; exact hf.1)⟩
    · have := alts_ends q as _ i c hi w hw
      exact ⟨this.1, this.2.1, fun hf => this.2.2 (by simp [Alts.feeds] at hf; exact hf.2)⟩
end

/-! ## first characters -/

/-- The next character is not in `L`. -/
def Dead (q : List Int) (L : Int → Bool) (i : Nat) : Prop := ∃ x, q[i]? = some x ∧ L x = false

/-- At a position where no match can begin with the next character only the empty text is matched, if that is possible. -/
def Stuck (i : Nat) (e : Bool) (l : List Way) : Prop := ∀ w ∈ l, e = true ∧ w.1 = i

theorem must_stuck {q : List Int} {B : Nat → Caps → List Way} {F : Int → Bool} {e : Bool} (hB : ∀ i c, Dead q F i → Stuck i e (B i c)) : ∀ (n : Nat) (w : Way),
    Dead q F w.1 → Stuck w.1 (n == 0 || e) (must B n w)
  | 0, w, _ => by intro v hv; simp [must] at hv; subst hv; simp
  | n + 1, w, h => by
    intro v hv
    simp only [must, List.mem_flatMap] at hv
    obtain ⟨u, hu, hv⟩ := hv
    obtain ⟨h1, h2⟩ := hB w.1 w.2 h u hu
    have := must_stuck hB n u (by rw [h2]; exact h) v hv
    exact ⟨by simp [h1], by omega⟩

theorem most_stuck {q : List Int} {B : Nat → Caps → List Way} {F : Int → Bool} {e : Bool} (hB : ∀ i c, Dead q F i → Stuck i e (B i c)) (n : Nat) (w : Way)
    (h : Dead q F w.1) : manyMost B n w = [w] := by
  cases n with
  | zero => rfl
  | succ n =>
    have : (B w.1 w.2).filter (fun v => decide (w.1 < v.1)) = [] := by
      rw [List.filter_eq_nil_iff]
      intro v hv
      have := (hB w.1 w.2 h v hv).2
      simp only [decide_eq_true_eq]; omega
    simp [manyMost, this]

theorem least_stuck {q : List Int} {B : Nat → Caps → List Way} {F : Int → Bool} {e : Bool} (hB : ∀ i c, Dead q F i → Stuck i e (B i c)) (n : Nat) (w : Way)
    (h : Dead q F w.1) : manyLeast B n w = [w] := by
  cases n with
  | zero => rfl
  | succ n =>
    have : (B w.1 w.2).filter (fun v => decide (w.1 < v.1)) = [] := by
      rw [List.filter_eq_nil_iff]
      intro v hv
      have := (hB w.1 w.2 h v hv).2
      simp only [decide_eq_true_eq]; omega
    simp [manyLeast, this]

theorem quant_stuck {q : List Int} {B : Nat → Caps → List Way} {F : Int → Bool} {e : Bool} (hB : ∀ i c, Dead q F i → Stuck i e (B i c)) (k : Quant) (w : Way)
    (h : Dead q F w.1) (len : Nat) : Stuck w.1 (k.lo == 0 || e) (k.ways len B w) := by
  have hm : Stuck w.1 (k.lo == 0 || e) ((must B k.lo w).flatMap (manyMost B (k.extra len))) := by
    intro v hv
    simp only [List.mem_flatMap] at hv
    obtain ⟨u, hu, hv⟩ := hv
    have h1 := must_stuck hB k.lo w h u hu
    rw [most_stuck hB _ u (by rw [h1.2]; exact h)] at hv
    simp only [List.mem_singleton] at hv; subst hv; exact h1
  intro v hv
  unfold Quant.ways at hv
  split at hv
  · exact hm v hv
  · simp only [List.mem_flatMap] at hv
    obtain ⟨u, hu, hv⟩ := hv
    have h1 := must_stuck hB k.lo w h u hu
    rw [least_stuck hB _ u (by rw [h1.2]; exact h)] at hv
    simp only [List.mem_singleton] at hv; subst hv; exact h1
  · exact hm v (List.mem_of_mem_take hv)

theorem one_stuck (q : List Int) (S : Int → Bool) (i : Nat) (c : Caps) (h : Dead q S i) : Stuck i false (one q S i c) := by
  obtain ⟨x, hx, hs⟩ := h
  intro w hw
  simp [one, hx, hs] at hw

mutual
theorem atom_stuck (q : List Int) : ∀ (a : Atom) (n i : Nat) (c : Caps), Dead q a.heads i → Stuck i a.empties (a.ways q n i c)
  | .group capture as, n, i, c, hd => by
    have hd' : Dead q as.heads i := by simpa only [Dead, Atom.heads] using hd
    simp only [Atom.ways, Atom.empties]
    split
    · intro w hw
      simp only [List.mem_map] at hw
      obtain ⟨v, hv, rfl⟩ := hw
      exact alts_stuck q as (n + 1) i c hd' v hv
    · exact alts_stuck q as n i c hd'
  | .chr x, n, i, c, hd => one_stuck q _ i c hd
  | .esc x, n, i, c, hd => one_stuck q _ i c hd
  | .dot, n, i, c, hd => one_stuck q _ i c hd
  | .hex x y, n, i, c, hd => one_stuck q _ i c hd
  | .oct x y z, n, i, c, hd => one_stuck q _ i c hd
  | .cls neg items dash, n, i, c, hd => one_stuck q _ i c hd
theorem sq_stuck (q : List Int) : ∀ (s : Sq) (n i : Nat) (c : Caps), Dead q s.heads i → Stuck i s.empties (s.ways q n i c)
  | .nil dollar, n, i, c, hd => by
    obtain ⟨x, hx, hs⟩ := hd
    have := (List.getElem?_eq_some_iff.1 hx).1
    intro w hw
    simp only [Sq.ways, List.mem_map] at hw
    obtain ⟨e, he, rfl⟩ := hw
    cases dollar with
    | false => simp [Sq.picks] at he; simp [Sq.empties, he]
    | true =>
      simp only [Sq.picks, hx] at he
      simp only [Sq.heads, Bool.true_and, beq_eq_false_iff_ne, ne_eq] at hs
      rw [if_neg (by omega), if_neg (by simpa using hs)] at he
      simp at he
  | .cons a k s, n, i, c, hd => by
    intro w hw
    simp only [Sq.ways, List.mem_flatMap] at hw
    obtain ⟨u, hu, hw⟩ := hw
    obtain ⟨x, hx, hs⟩ := hd
    simp only [Sq.heads, Bool.or_eq_false_iff] at hs
    obtain ⟨h1, h2⟩ := quant_stuck (fun i c hi => atom_stuck q a n i c hi) k (i, c) ⟨x, hx, hs.1⟩ q.length u hu
    simp only at h2
    have h3 : s.heads x = false := by simpa [h1] using hs.2
    obtain ⟨h4, h5⟩ := sq_stuck q s _ u.1 u.2 ⟨x, by rw [h2]; exact hx, h3⟩ w hw
    exact ⟨by simp only [Sq.empties, h1, h4, Bool.and_self], by omega⟩
theorem alts_stuck (q : List Int) : ∀ (as : Alts) (n i : Nat) (c : Caps), Dead q as.heads i → Stuck i as.empties (as.ways q n i c)
  | .last hat s, n, i, c, hd => by
    have hd' : Dead q s.heads i := by simpa only [Dead, Alts.heads] using hd
    simp only [Alts.ways, Alts.empties]
    split
    · intro w hw; simp at hw
    · exact sq_stuck q s n i c hd'
  | .more hat s as, n, i, c, hd => by
    obtain ⟨x, hx, hs⟩ := hd
    simp only [Alts.heads, Bool.or_eq_false_iff] at hs
    intro w hw
    simp only [Alts.ways, List.mem_append] at hw
    rcases hw with hw | hw
    · split at hw
      · simp at hw
      · have := sq_stuck q s n i c ⟨x, hx, hs.1⟩ w hw
        exact ⟨by simp [Alts.empties, this.1], this.2⟩
    · have := alts_stuck q as _ i c ⟨x, hx, hs.2⟩ w hw
      exact ⟨by simp [Alts.empties, this.1], this.2⟩
end

/-! ## no choice is undone -/

/-- The matcher without backtracking gives `o`; of the ways in the list it is the one that counts, whatever follows.  `tot`: what follows always matches;
`L`: the characters it can begin with. -/
def Commit (q : List Int) (tot : Bool) (L : Int → Bool) (l : List Way) : Option Way → Prop
  | none => l = []
  | some w => if tot then l.head? = some w else ∃ l1 l2, l = l1 ++ w :: l2 ∧ (∀ v ∈ l1, Dead q L v.1) ∧ ∀ v ∈ l2, Dead q L v.1

theorem Commit.head {q : List Int} {L : Int → Bool} {l : List Way} {o : Option Way} (h : Commit q true L l o) : l.head? = o := by
  cases o with
  | none => have : l = [] := h; simp [this]
  | some w => simpa [Commit] using h

theorem Commit.of_head {q : List Int} {L : Int → Bool} {l : List Way} {o : Option Way} (h : l.head? = o) : Commit q true L l o := by
  cases o with
  | none => exact List.head?_eq_none_iff.1 h
  | some w => simpa [Commit] using h

theorem Commit.short {q : List Int} {tot : Bool} {L : Int → Bool} {l : List Way} (h : l.length ≤ 1) : Commit q tot L l l.head? := by
  match l, h with
  | [], _ => rfl
  | [w], _ =>
    cases tot
    · exact ⟨[], [], rfl, by simp, by simp⟩
    · rfl
  | _ :: _ :: _, h => simp at h

theorem Commit.one {q : List Int} {tot : Bool} {L : Int → Bool} (w : Way) : Commit q tot L [w] (some w) := Commit.short (l := [w]) (by simp)

theorem Commit.nil {q : List Int} {tot : Bool} {L : Int → Bool} : Commit q tot L [] none := rfl

theorem Commit.map {q : List Int} {tot : Bool} {L : Int → Bool} {l : List Way} {o : Option Way} (h : Commit q tot L l o) (f : Way → Way) (hf : ∀ w, (f w).1 = w.1) :
    Commit q tot L (l.map f) (o.map f) := by
  cases o with
  | none => have : l = [] := h; simp [this, Commit]
  | some w =>
    cases tot with
    | true => have : l.head? = some w := by simpa [Commit] using h
              simp [Commit, this]
    | false =>
      obtain ⟨l1, l2, rfl, h1, h2⟩ : ∃ l1 l2, l = l1 ++ w :: l2 ∧ (∀ v ∈ l1, Dead q L v.1) ∧ ∀ v ∈ l2, Dead q L v.1 := by simpa [Commit] using h
      refine ⟨l1.map f, l2.map f, by simp, ?_, ?_⟩
      · intro v hv
        obtain ⟨u, hu, rfl⟩ := List.mem_map.1 hv
        rw [hf]; exact h1 u hu
      · intro v hv
        obtain ⟨u, hu, rfl⟩ := List.mem_map.1 hv
        rw [hf]; exact h2 u hu

/-- One part behind the other. -/
theorem Commit.bind {q : List Int} {tot V : Bool} {L L' : Int → Bool} {l : List Way} {o : Option Way} {K : Way → List Way} {g : Way → Option Way}
    (h : Commit q (tot && V) L' l o) (hV : V = true → ∀ w ∈ l, K w ≠ []) (hd : ∀ v ∈ l, Dead q L' v.1 → ∀ u ∈ K v, V = true ∧ Dead q L u.1)
    (hK : ∀ w ∈ l, Commit q tot L (K w) (g w)) : Commit q tot L (l.flatMap K) (o.bind g) := by
  cases o with
  | none => have : l = [] := h; simp [this, Commit]
  | some w =>
    simp only [Option.bind_some]
    cases hb : tot && V with
    | true =>
      rw [hb] at h
      have hl : l.head? = some w := h.head
      obtain ⟨t, rfl⟩ : ∃ t, l = w :: t := by cases l with
        | nil => simp at hl
        | cons a t => simp at hl; exact ⟨t, by rw [hl]⟩
      simp only [Bool.and_eq_true] at hb
      have h1 := hV hb.2 w (by simp)
      have h2 := hK w (by simp)
      rw [hb.1] at h2 ⊢
      have h3 := h2.head
      refine Commit.of_head ?_
      rw [List.flatMap_cons, List.head?_append, h3]
      cases hg : g w with
      | none => rw [hg] at h3; exact absurd (List.head?_eq_none_iff.1 h3) h1
      | some u => rfl
    | false =>
      rw [hb] at h
      obtain ⟨l1, l2, rfl, h1, h2⟩ : ∃ l1 l2, l = l1 ++ w :: l2 ∧ (∀ v ∈ l1, Dead q L' v.1) ∧ ∀ v ∈ l2, Dead q L' v.1 := by simpa [Commit] using h
      have hk := hK w (by simp)
      have e1 : ∀ u ∈ l1.flatMap K, V = true ∧ Dead q L u.1 := by
        intro u hu
        obtain ⟨v, hv, hu⟩ := List.mem_flatMap.1 hu
        exact hd v (by simp [hv]) (h1 v hv) u hu
      have e2 : ∀ u ∈ l2.flatMap K, V = true ∧ Dead q L u.1 := by
        intro u hu
        obtain ⟨v, hv, hu⟩ := List.mem_flatMap.1 hu
        exact hd v (by simp [hv]) (h2 v hv) u hu
      rw [List.flatMap_append, List.flatMap_cons]
      cases hv : V with
      | false =>
        have n1 : l1.flatMap K = [] := List.eq_nil_iff_forall_not_mem.2 (fun u hu => by have := (e1 u hu).1; rw [hv] at this; cases this)
        have n2 : l2.flatMap K = [] := List.eq_nil_iff_forall_not_mem.2 (fun u hu => by have := (e2 u hu).1; rw [hv] at this; cases this)
        rw [n1, n2, List.append_nil, List.nil_append]; exact hk
      | true =>
        have ht : tot = false := by rw [hv] at hb; simpa using hb
        subst ht
        have hne := hV hv w (by simp)
        cases hg : g w with
        | none => rw [hg] at hk; exact absurd hk hne
        | some u =>
          rw [hg] at hk
          obtain ⟨k1, k2, hk, d1, d2⟩ : ∃ l1 l2, K w = l1 ++ u :: l2 ∧ (∀ v ∈ l1, Dead q L v.1) ∧ ∀ v ∈ l2, Dead q L v.1 := by simpa [Commit] using hk
          refine ⟨l1.flatMap K ++ k1, k2 ++ l2.flatMap K, by rw [hk]; simp, ?_, ?_⟩
          · intro v hv
            rcases List.mem_append.1 hv with hv | hv
            · exact (e1 v hv).2
            · exact d1 v hv
          · intro v hv
            rcases List.mem_append.1 hv with hv | hv
            · exact d2 v hv
            · exact (e2 v hv).2

theorem Commit.after {q : List Int} {tot : Bool} {L : Int → Bool} {l : List Way} {v w : Way} (h : Commit q tot L l (some v)) (hd : tot = true ∨ Dead q L w.1) :
    Commit q tot L (l ++ [w]) (some v) := by
  cases tot with
  | true =>
    have : l.head? = some v := h.head
    exact Commit.of_head (by rw [List.head?_append, this]; rfl)
  | false =>
    obtain ⟨l1, l2, rfl, h1, h2⟩ : ∃ l1 l2, l = l1 ++ v :: l2 ∧ (∀ v ∈ l1, Dead q L v.1) ∧ ∀ v ∈ l2, Dead q L v.1 := by simpa [Commit] using h
    refine ⟨l1, l2 ++ [w], by simp, h1, ?_⟩
    intro u hu
    rcases List.mem_append.1 hu with hu | hu
    · exact h2 u hu
    · simp at hu; subst hu; simpa using hd

theorem Commit.before {q : List Int} {L : Int → Bool} {l : List Way} {v w : Way} (h : Commit q false L l (some v)) (hd : Dead q L w.1) :
    Commit q false L (w :: l) (some v) := by
  obtain ⟨l1, l2, rfl, h1, h2⟩ : ∃ l1 l2, l = l1 ++ v :: l2 ∧ (∀ v ∈ l1, Dead q L v.1) ∧ ∀ v ∈ l2, Dead q L v.1 := by simpa [Commit] using h
  refine ⟨w :: l1, l2, by simp, ?_, h2⟩
  intro u hu
  rcases List.mem_cons.1 hu with rfl | hu
  · exact hd
  · exact h1 u hu

/-- What is known about the repeated part. -/
structure Body (q : List Int) (F : Int → Bool) (B : Nat → Caps → List Way) : Prop where
  ends : ∀ i c, i ≤ q.length → EndsIn q i true (B i c)
  stuck : ∀ i c, Dead q F i → ∃ e, Stuck i e (B i c)

theorem Body.all {q : List Int} {F : Int → Bool} {B : Nat → Caps → List Way} (h : Body q F B) {w : Way} (hw : w.1 ≤ q.length) :
    (B w.1 w.2).filter (fun v => decide (w.1 < v.1)) = B w.1 w.2 := by
  rw [List.filter_eq_self]
  intro v hv
  simpa using (h.ends w.1 w.2 hw v hv).2.2 rfl

theorem Body.none {q : List Int} {F : Int → Bool} {B : Nat → Caps → List Way} (h : Body q F B) {w : Way} (hw : w.1 ≤ q.length) (hd : Dead q F w.1) :
    B w.1 w.2 = [] := by
  refine List.eq_nil_iff_forall_not_mem.2 (fun v hv => ?_)
  have h1 := (h.ends w.1 w.2 hw v hv).2.2 rfl
  obtain ⟨e, h2⟩ := h.stuck w.1 w.2 hd
  have := (h2 v hv).2
  omega

theorem Body.live {q : List Int} {F U : Int → Bool} {B : Nat → Caps → List Way} (h : Body q F B) (hq : ∀ c ∈ q, c ∈ allChars) (hm : meets F U = false)
    {w : Way} (hw : w.1 ≤ q.length) (hne : B w.1 w.2 ≠ []) : Dead q U w.1 := by
  obtain ⟨v, hv⟩ := List.exists_mem_of_ne_nil _ hne
  have h1 := h.ends w.1 w.2 hw v hv
  have h2 := h1.2.2 rfl
  have hlt : w.1 < q.length := by omega
  refine ⟨q[w.1], List.getElem?_eq_getElem hlt, ?_⟩
  cases hF : F q[w.1] with
  | false => exact absurd (h.none hw ⟨_, List.getElem?_eq_getElem hlt, hF⟩) hne
  | true =>
    cases hU : U q[w.1] with
    | false => rfl
    | true =>
      have := (meets_iff F U).2 ⟨_, hq _ (List.getElem_mem hlt), hF, hU⟩
      rw [this] at hm; cases hm

theorem Dead.left {q : List Int} {F U : Int → Bool} {i : Nat} (h : Dead q (fun x => F x || U x) i) : Dead q F i := by
  obtain ⟨x, hx, h⟩ := h
  exact ⟨x, hx, by simp at h; exact h.1⟩
theorem Dead.right {q : List Int} {F U : Int → Bool} {i : Nat} (h : Dead q (fun x => F x || U x) i) : Dead q U i := by
  obtain ⟨x, hx, h⟩ := h
  exact ⟨x, hx, by simp at h; exact h.2⟩

theorem most_dead {q : List Int} {F : Int → Bool} {B : Nat → Caps → List Way} (h : Body q F B) (n : Nat) {w : Way} (hw : w.1 ≤ q.length) (hd : Dead q F w.1) :
    manyMost B n w = [w] := by
  cases n with
  | zero => rfl
  | succ n => simp [manyMost, h.none hw hd]

theorem least_dead {q : List Int} {F : Int → Bool} {B : Nat → Caps → List Way} (h : Body q F B) (n : Nat) {w : Way} (hw : w.1 ≤ q.length) (hd : Dead q F w.1) :
    manyLeast B n w = [w] := by
  cases n with
  | zero => rfl
  | succ n => simp [manyLeast, h.none hw hd]

theorem most_ne {B : Nat → Caps → List Way} (n : Nat) (w : Way) : manyMost B n w ≠ [] := by cases n <;> simp [manyMost]
theorem least_ne {B : Nat → Caps → List Way} (n : Nat) (w : Way) : manyLeast B n w ≠ [] := by cases n <;> simp [manyLeast]

theorem commit_most {q : List Int} (hq : ∀ c ∈ q, c ∈ allChars) {F U : Int → Bool} {B : Nat → Caps → List Way} {g : Nat → Caps → Option Way} (hB : Body q F B) {tot : Bool}
    (hc : ∀ i c, i ≤ q.length → Commit q tot (fun x => F x || U x) (B i c) (g i c)) (hm : tot = true ∨ meets F U = false) : ∀ (n : Nat) (w : Way), w.1 ≤ q.length →
    Commit q tot U (manyMost B n w) (some (growG g n w))
  | 0, w, _ => Commit.one w
  | n + 1, w, hw => by
    have h0 := hc w.1 w.2 hw
    simp only [manyMost, hB.all hw, growG]
    cases hg : g w.1 w.2 with
    | none =>
      rw [hg] at h0
      have : B w.1 w.2 = [] := h0
      rw [this]
      exact Commit.one w
    | some v =>
      rw [hg] at h0
      have hne : B w.1 w.2 ≠ [] := by
        intro e; rw [e] at h0
        cases tot with
        | true => have := h0.head; simp at this
        | false => obtain ⟨l1, l2, e, _⟩ := h0; simp at e
      have h1 : Commit q tot U ((B w.1 w.2).flatMap (manyMost B n)) ((some v).bind (fun u => some (growG g n u))) := by
        refine Commit.bind (V := true) (L' := fun x => F x || U x) (by simpa using h0) (fun _ u _ => most_ne n u) ?_ ?_
        · intro u hu hd x hx
          rw [most_dead hB n (hB.ends w.1 w.2 hw u hu).2.1 hd.left, List.mem_singleton] at hx
          subst hx; exact ⟨rfl, hd.right⟩
        · intro u hu
          exact commit_most hq hB hc hm n u (hB.ends w.1 w.2 hw u hu).2.1
      refine Commit.after h1 ?_
      rcases hm with hm | hm
      · exact .inl hm
      · exact .inr (hB.live hq hm hw hne)

theorem commit_least {q : List Int} (hq : ∀ c ∈ q, c ∈ allChars) {F U : Int → Bool} {B : Nat → Caps → List Way} {g : Nat → Caps → Option Way} (hB : Body q F B)
    (hc : ∀ i c, i ≤ q.length → Commit q false (fun x => F x || U x) (B i c) (g i c)) (hm : meets F U = false) : ∀ (n : Nat) (w : Way), w.1 ≤ q.length →
    Commit q false U (manyLeast B n w) (some (growG g n w))
  | 0, w, _ => Commit.one w
  | n + 1, w, hw => by
    have h0 := hc w.1 w.2 hw
    simp only [manyLeast, hB.all hw, growG]
    cases hg : g w.1 w.2 with
    | none =>
      rw [hg] at h0
      have : B w.1 w.2 = [] := h0
      rw [this]
      exact Commit.one w
    | some v =>
      rw [hg] at h0
      have hne : B w.1 w.2 ≠ [] := by
        intro e; rw [e] at h0
        obtain ⟨l1, l2, e, _⟩ := h0; simp at e
      have h1 : Commit q false U ((B w.1 w.2).flatMap (manyLeast B n)) ((some v).bind (fun u => some (growG g n u))) := by
        refine Commit.bind (V := true) (L' := fun x => F x || U x) (by simpa using h0) (fun _ u _ => least_ne n u) ?_ ?_
        · intro u hu hd x hx
          rw [least_dead hB n (hB.ends w.1 w.2 hw u hu).2.1 hd.left, List.mem_singleton] at hx
          subst hx; exact ⟨rfl, hd.right⟩
        · intro u hu
          exact commit_least hq hB hc hm n u (hB.ends w.1 w.2 hw u hu).2.1
      exact Commit.before h1 (hB.live hq hm hw hne)

/-- The mandatory repetitions, and what follows them. -/
theorem commit_must {q : List Int} {F U : Int → Bool} {B : Nat → Caps → List Way} {g : Nat → Caps → Option Way} (hB : Body q F B) {tot : Bool}
    (hc : ∀ i c, i ≤ q.length → Commit q tot (fun x => F x || U x) (B i c) (g i c)) {M : Way → List Way} {G : Way → Way} (hne : ∀ w, M w ≠ [])
    (hdead : ∀ w : Way, w.1 ≤ q.length → Dead q F w.1 → M w = [w]) (hM : ∀ w : Way, w.1 ≤ q.length → Commit q tot U (M w) (some (G w))) :
    ∀ (n : Nat), (n ≤ 1 ∨ ∀ i c, i ≤ q.length → Commit q false (fun x => F x || U x) (B i c) (g i c)) → ∀ (w : Way), w.1 ≤ q.length →
      Commit q tot U ((must B n w).flatMap M) ((mustG g n w).map G)
  | 0, _, w, hw => by simpa [must, mustG] using hM w hw
  | n + 1, hn, w, hw => by
    have e : (must B (n + 1) w).flatMap M = (B w.1 w.2).flatMap (fun v => (must B n v).flatMap M) := by simp [must, List.flatMap_assoc]
    have e' : (mustG g (n + 1) w).map G = (g w.1 w.2).bind (fun v => (mustG g n v).map G) := by simp [mustG, Option.map_bind]; rfl
    rw [e, e']
    refine Commit.bind (V := n == 0) (L' := fun x => F x || U x) ?_ ?_ ?_ ?_
    · cases n with
      | zero => simpa using hc w.1 w.2 hw
      | succ n =>
        have : ((tot && (n + 1 == 0)) = false) := by simp
        rw [this]
        rcases hn with hn | hn
        · omega
        · exact hn w.1 w.2 hw
    · intro hz v _
      have : n = 0 := by simpa using hz
      subst this
      simpa [must] using hne v
    · intro v hv hd u hu
      have hv' := (hB.ends w.1 w.2 hw v hv).2.1
      cases n with
      | zero =>
        simp only [must, List.flatMap_cons, List.flatMap_nil, List.append_nil] at hu
        rw [hdead v hv' hd.left, List.mem_singleton] at hu
        subst hu; exact ⟨rfl, hd.right⟩
      | succ n => simp [must, hB.none hv' hd.left] at hu
    · intro v hv
      exact commit_must hB hc hne hdead hM n (by rcases hn with hn | hn
                                                 · exact .inl (by omega)
                                                 · exact .inr hn) v (hB.ends w.1 w.2 hw v hv).2.1

theorem extra_fixed {k : Quant} (h : k.fixed = true) (len : Nat) : k.extra len = 0 := by
  unfold Quant.fixed at h
  split at h
  · rfl
  · simp [Quant.extra, Quant.hi, Quant.lo]
  · cases h

theorem commit_quant {q : List Int} (hq : ∀ c ∈ q, c ∈ allChars) {F U : Int → Bool} {B : Nat → Caps → List Way} {g : Nat → Caps → Option Way} (hB : Body q F B) {tot : Bool}
    (k : Quant) (hd : decides tot k F U = true)
    (hc : ∀ i c, i ≤ q.length → Commit q ((match k.mode with | .possessive => true | _ => false) || tot) (fun x => F x || U x) (B i c) (g i c))
    (hn : k.lo ≤ 1 ∨ ∀ i c, i ≤ q.length → Commit q false (fun x => F x || U x) (B i c) (g i c)) (w : Way) (hw : w.1 ≤ q.length) :
    Commit q tot U (k.ways q.length B w) (k.go q.length g w) := by
  unfold Quant.ways Quant.go
  cases hm : k.mode with
  | greedy =>
    simp only [hm, Bool.false_or] at hc ⊢
    refine commit_must hB hc (fun w => most_ne _ w) (fun w hw h => most_dead hB _ hw h) (fun w hw => ?_) _ hn w hw
    unfold decides at hd
    simp only [hm, Bool.or_eq_true, Bool.not_eq_true'] at hd
    rcases hd with hd | hd
    · rw [extra_fixed hd]; exact Commit.one w
    · exact commit_most hq hB hc hd _ w hw
  | lazy =>
    simp only [hm, Bool.false_or] at hc ⊢
    refine commit_must hB hc (fun w => least_ne _ w) (fun w hw h => least_dead hB _ hw h) (fun w hw => ?_) _ hn w hw
    unfold decides at hd
    simp only [hm, Bool.or_eq_true, Bool.not_eq_true', Bool.and_eq_true] at hd
    rcases hd with hd | hd
    · rw [extra_fixed hd]; exact Commit.one w
    · obtain ⟨ht, hd⟩ := hd
      subst ht
      exact commit_least hq hB hc hd _ w hw
  | possessive =>
    simp only [hm, Bool.true_or] at hc ⊢
    have h := commit_must (tot := true) hB hc (M := manyMost B (k.extra q.length)) (G := growG g (k.extra q.length)) (fun w => most_ne _ w) (fun w hw h => most_dead hB _ hw h)
      (fun w hw => commit_most hq hB hc (.inl rfl) _ w hw) _ hn w hw
    have h1 := h.head
    rw [← h1]
    have := Commit.short (q := q) (tot := tot) (L := U) (l := List.take 1 ((must B k.lo w).flatMap (manyMost B (k.extra q.length)))) (by simp; omega)
    rwa [List.head?_take, if_neg (by decide)] at this

/-! ## the whole pattern -/

mutual
theorem atom_void (q : List Int) : ∀ (a : Atom) (n i : Nat) (c : Caps), a.empties = true → a.hatless = true → a.ways q n i c ≠ []
  | .group capture as, n, i, c, h, hh => by
    simp only [Atom.ways]
    split
    · simpa using alts_void q as (n + 1) i c h hh
    · exact alts_void q as n i c h hh
theorem sq_void (q : List Int) : ∀ (s : Sq) (n i : Nat) (c : Caps), s.empties = true → s.hatless = true → s.ways q n i c ≠ []
  | .nil dollar, n, i, c, h, hh => by
    have : dollar = false := by simpa [Sq.empties] using h
    subst this
    simp [Sq.ways, Sq.picks]
  | .cons a k s, n, i, c, h, hh => by
    simp only [Sq.empties, Bool.and_eq_true, Bool.or_eq_true, beq_iff_eq] at h
    simp only [Sq.hatless, Bool.and_eq_true] at hh
    have hm : ∀ m w, (m = 0 ∨ a.empties = true) → must (a.ways q n) m w ≠ [] := by
      intro m
      induction m with
      | zero => intro w _; simp [must]
      | succ m ih =>
        intro w hz
        have hz' : a.empties = true := by simpa using hz
        obtain ⟨v, hv⟩ := List.exists_mem_of_ne_nil _ (atom_void q a n w.1 w.2 hz' hh.1)
        obtain ⟨u, hu⟩ := List.exists_mem_of_ne_nil _ (ih v (.inr hz'))
        exact List.ne_nil_of_mem (List.mem_flatMap.2 ⟨v, hv, hu⟩)
    have hk : k.ways q.length (a.ways q n) (i, c) ≠ [] := by
      obtain ⟨v, hv⟩ := List.exists_mem_of_ne_nil _ (hm k.lo (i, c) h.1)
      have h1 : (must (a.ways q n) k.lo (i, c)).flatMap (manyMost (a.ways q n) (k.extra q.length)) ≠ [] := by
        obtain ⟨u, hu⟩ := List.exists_mem_of_ne_nil _ (most_ne (B := a.ways q n) (k.extra q.length) v)
        exact List.ne_nil_of_mem (List.mem_flatMap.2 ⟨v, hv, hu⟩)
      unfold Quant.ways
      split
      · exact h1
      · obtain ⟨u, hu⟩ := List.exists_mem_of_ne_nil _ (least_ne (B := a.ways q n) (k.extra q.length) v)
        exact List.ne_nil_of_mem (List.mem_flatMap.2 ⟨v, hv, hu⟩)
      · intro e
        rw [List.take_eq_nil_iff] at e
        rcases e with e | e
        · cases e
        · exact h1 e
    obtain ⟨v, hv⟩ := List.exists_mem_of_ne_nil _ hk
    obtain ⟨u, hu⟩ := List.exists_mem_of_ne_nil _ (sq_void q s (n + a.count) v.1 v.2 h.2 hh.2)
    exact List.ne_nil_of_mem (List.mem_flatMap.2 ⟨v, hv, hu⟩)
theorem alts_void (q : List Int) : ∀ (as : Alts) (n i : Nat) (c : Caps), as.empties = true → as.hatless = true → as.ways q n i c ≠ []
  | .last hat s, n, i, c, h, hh => by
    simp only [Alts.hatless, Bool.and_eq_true, Bool.not_eq_true'] at hh
    obtain ⟨rfl, h2⟩ := hh
    have : Alts.ways q n (.last false s) i c = s.ways q n i c := rfl
    rw [this]
    exact sq_void q s n i c h h2
  | .more hat s as, n, i, c, h, hh => by
    simp only [Alts.hatless, Bool.and_eq_true, Bool.not_eq_true'] at hh
    simp only [Alts.empties, Bool.or_eq_true] at h
    simp only [Alts.ways, hh.1.1, Bool.false_and, Bool.false_eq_true, if_false, ne_eq, List.append_eq_nil_iff, not_and]
    intro e
    rcases h with h | h
    · exact absurd e (sq_void q s n i c h hh.1.2)
    · exact alts_void q as _ i c h hh.2
end

theorem one_go (q : List Int) (S : Int → Bool) (i : Nat) (c : Caps) : oneG q S i c = (one q S i c).head? ∧ (one q S i c).length ≤ 1 := by
  unfold oneG one
  cases q[i]? with
  | none => exact ⟨rfl, by simp⟩
  | some x =>
    by_cases h : S x = true
    · simp [h]
    · simp [h]

theorem commit_one {q : List Int} {tot : Bool} {L : Int → Bool} (S : Int → Bool) (i : Nat) (c : Caps) : Commit q tot L (one q S i c) (oneG q S i c) := by
  rw [(one_go q S i c).1]; exact Commit.short (one_go q S i c).2

theorem picks_short (q : List Int) (d : Bool) (i : Nat) : ((Sq.nil d).picks q i).length ≤ 1 := by
  cases d with
  | false => simp [Sq.picks]
  | true =>
    simp only [Sq.picks]
    split
    · simp
    · split <;> simp

theorem once_ways (len : Nat) (B : Nat → Caps → List Way) (w : Way) : Quant.once.ways len B w = B w.1 w.2 := by
  have hf : must B 1 = fun w => B w.1 w.2 := by
    funext w
    exact List.flatMap_singleton' (B w.1 w.2)
  have hl : Quant.once.lo = 1 := rfl
  have he : Quant.once.extra len = 0 := rfl
  have hm : Quant.once.mode = .greedy := rfl
  unfold Quant.ways
  simp only [hm, hl, he, hf]
  have : manyMost B 0 = fun w => [w] := by funext w; rfl
  rw [this]; simp

theorem once_go (len : Nat) (g : Nat → Caps → Option Way) (w : Way) : Quant.once.go len g w = g w.1 w.2 := by
  have hl : Quant.once.lo = 1 := rfl
  have he : Quant.once.extra len = 0 := rfl
  unfold Quant.go
  rw [hl, he]
  simp only [mustG, Option.bind_fun_some]
  have : growG g 0 = id := by funext w; rfl
  rw [this]; simp

mutual
theorem commit_atom {q : List Int} (hq : ∀ c ∈ q, c ∈ allChars) : ∀ (a : Atom) (tot : Bool) (L : Int → Bool), a.commits tot L = true → ∀ (n i : Nat) (c : Caps), i ≤ q.length →
    Commit q tot L (a.ways q n i c) (a.go q n i c)
  | .group capture as, tot, L, h, n, i, c, hi => by
    simp only [Atom.commits, Bool.and_eq_true] at h
    cases capture with
    | true => simpa only [Atom.ways, Atom.go, if_true] using (commit_alts hq as tot L h.2 (n + 1) i c hi).map (fun w => (w.1, w.2.with n i w.1)) (fun _ => rfl)
    | false => simpa only [Atom.ways, Atom.go, Bool.false_eq_true, if_false] using commit_alts hq as tot L h.2 n i c hi
  | .chr x, _, _, _, n, i, c, hi => commit_one _ i c
  | .esc x, _, _, _, n, i, c, hi => commit_one _ i c
  | .dot, _, _, _, n, i, c, hi => commit_one _ i c
  | .hex x y, _, _, _, n, i, c, hi => commit_one _ i c
  | .oct x y z, _, _, _, n, i, c, hi => commit_one _ i c
  | .cls neg items dash, _, _, _, n, i, c, hi => commit_one _ i c
theorem commit_sq {q : List Int} (hq : ∀ c ∈ q, c ∈ allChars) : ∀ (s : Sq) (tot : Bool) (L : Int → Bool), s.commits tot L = true → s.hatless = true → ∀ (n i : Nat) (c : Caps), i ≤ q.length →
    Commit q tot L (s.ways q n i c) (s.go q n i c)
  | .nil d, tot, L, h, _, n, i, c, hi => by
    simp only [Sq.ways, Sq.go]
    rw [← List.head?_map]
    exact Commit.short (by simpa using picks_short q d i)
  | .cons a k s, tot, L, h, hh, n, i, c, hi => by
    simp only [Sq.hatless, Bool.and_eq_true] at hh
    simp only [Sq.commits, Bool.and_eq_true] at h
    obtain ⟨h1, h2⟩ := h
    have hK : Commit q (tot && s.empties) (s.upcoming L) (k.ways q.length (a.ways q n) (i, c)) (k.go q.length (a.go q n) (i, c)) := by
      by_cases hk : k = .once
      · subst hk
        rw [once_ways, once_go]
        exact commit_atom hq a _ _ h1 n i c hi
      · have h1' : a.feeds = true ∧ decides (tot && s.empties) k a.heads (s.upcoming L) = true ∧
            a.commits ((match k.mode with | .possessive => true | _ => false) || (tot && s.empties)) (fun x => a.heads x || s.upcoming L x) = true ∧
            (k.lo ≤ 1 ∨ a.commits false (fun x => a.heads x || s.upcoming L x) = true) := by
          cases k <;> first | exact absurd rfl hk | (simp only [Bool.and_eq_true, Bool.or_eq_true, decide_eq_true_eq] at h1; exact ⟨h1.1.1.1.1, h1.1.1.2, h1.1.2, h1.2⟩)
        obtain ⟨hf, hd, hc, hn⟩ := h1'
        refine commit_quant hq (F := a.heads) ⟨fun i c hi => ?_, fun i c hd => ⟨_, atom_stuck q a n i c hd⟩⟩ k hd (fun i c hi => commit_atom hq a _ _ hc n i c hi) ?_ (i, c) hi
        · have := atom_ends q a n i c hi
          rwa [hf] at this
        · rcases hn with hn | hn
          · exact .inl hn
          · exact .inr (fun i c hi => commit_atom hq a _ _ hn n i c hi)
    simp only [Sq.ways, Sq.go]
    refine Commit.bind hK (fun hv w _ => sq_void q s _ w.1 w.2 hv hh.2) ?_ ?_
    · intro v hv hd u hu
      obtain ⟨x, hx, hu'⟩ := hd
      simp only [Sq.upcoming, Bool.or_eq_false_iff] at hu'
      obtain ⟨h3, h4⟩ := sq_stuck q s _ v.1 v.2 ⟨x, hx, hu'.1⟩ u hu
      refine ⟨h3, x, by rw [h4]; exact hx, ?_⟩
      simpa [h3] using hu'.2
    · intro w hw
      exact commit_sq hq s tot L h2 hh.2 _ w.1 w.2 (quant_ends (fun i c hi => atom_ends q a n i c hi) k (i, c) hi w hw).2.1
theorem commit_alts {q : List Int} (hq : ∀ c ∈ q, c ∈ allChars) : ∀ (as : Alts) (tot : Bool) (L : Int → Bool), as.commits tot L = true → ∀ (n i : Nat) (c : Caps), i ≤ q.length →
    Commit q tot L (as.ways q n i c) (as.go q n i c)
  | .last hat s, tot, L, h, n, i, c, hi => by
    simp only [Alts.commits, Bool.and_eq_true] at h
    simp only [Alts.ways, Alts.go]
    cases hat && i != 0
    · exact commit_sq hq s tot L h.2 h.1 n i c hi
    · exact Commit.nil
  | .more hat s as, tot, L, h, n, i, c, hi => by
    simp only [Alts.commits, Bool.and_eq_true, Bool.or_eq_true, Bool.not_eq_true'] at h
    obtain ⟨⟨⟨h0, h1⟩, h2⟩, h3⟩ := h
    have c1 : Commit q tot L (if hat && i != 0 then [] else s.ways q n i c) (if hat && i != 0 then none else s.go q n i c) := by
      cases hat && i != 0
      · exact commit_sq hq s tot L h1 h0 n i c hi
      · exact Commit.nil
    have c2 := commit_alts hq as tot L h2 (n + s.count) i c hi
    simp only [Alts.ways, Alts.go]
    cases hg : (if hat && i != 0 then none else s.go q n i c) with
    | none =>
      rw [hg] at c1
      have : (if hat && i != 0 then [] else s.ways q n i c) = [] := c1
      rw [this]; exact c2
    | some w =>
      rw [hg] at c1
      simp only
      cases tot with
      | true => exact Commit.of_head (by rw [List.head?_append, c1.head]; rfl)
      | false =>
        simp only [Bool.false_eq_true, false_or] at h3
        obtain ⟨⟨f1, f2⟩, hm⟩ := h3
        have : as.ways q (n + s.count) i c = [] := by
          have hne : s.ways q n i c ≠ [] := by
            obtain ⟨l1, l2, e, _⟩ := c1
            intro e'
            rw [e'] at e
            split at e <;> simp at e
          obtain ⟨v, hv⟩ := List.exists_mem_of_ne_nil _ hne
          have hB : Body q s.heads (s.ways q n) := ⟨fun i c hi => by have := sq_ends q s n i c hi; rwa [f1] at this, fun i c hd => ⟨_, sq_stuck q s n i c hd⟩⟩
          have hB' : Body q as.heads (as.ways q (n + s.count)) :=
            ⟨fun i c hi => by have := alts_ends q as (n + s.count) i c hi; rwa [f2] at this, fun i c hd => ⟨_, alts_stuck q as _ i c hd⟩⟩
          exact hB'.none (w := (i, c)) hi (hB.live hq hm (w := (i, c)) hi hne)
        rw [this, List.append_nil]; exact c1
end

end ERegex

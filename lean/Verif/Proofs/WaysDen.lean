import Verif.Spec.Backtrack
import Verif.Spec.Texts
import Verif.Proofs.Decide
import Verif.Proofs.Sound
/-! # The ways of the backtracking specification against the textbook relation -/
set_option autoImplicit false
namespace ERegex
open ERegex.Spec

theorem quant_iter {q : List Int} {r : Rx} (k : Quant) (i j : Nat) :
    Den q (k.sem r) i j ↔ ∃ n, k.lo ≤ n ∧ (∀ h, k.hi = some h → n ≤ h) ∧ Iter (Den q r) n i j := by
  cases k with
  | once =>
    simp only [Quant.sem, Quant.lo, Quant.hi, Option.some.injEq, forall_eq']
    refine ⟨fun h => ⟨1, Nat.le_refl _, Nat.le_refl _, iter_one h⟩, ?_⟩
    rintro ⟨n, h1, h2, h3⟩
    have : n = 1 := by omega
    subst this
    obtain ⟨k, h4, h5⟩ := h3
    simp only [Iter] at h5
    exact h5 ▸ h4
  | _ => exact Iff.rfl

theorem must_sound {R : Nat → Nat → Prop} {body : Nat → Caps → List Way} (hb : ∀ i c w, w ∈ body i c → R i w.1) :
    ∀ (n : Nat) (w v : Way), v ∈ must body n w → Iter R n w.1 v.1
  | 0, w, v, h => by simp only [must, List.mem_singleton] at h; subst h; rfl
  | n + 1, w, v, h => by
    simp only [must, List.mem_flatMap] at h
    obtain ⟨u, h1, h2⟩ := h
    exact ⟨u.1, hb _ _ _ h1, must_sound hb n u v h2⟩

theorem most_sound {R : Nat → Nat → Prop} {body : Nat → Caps → List Way} (hb : ∀ i c w, w ∈ body i c → R i w.1) :
    ∀ (f : Nat) (w v : Way), v ∈ manyMost body f w → ∃ m, m ≤ f ∧ Iter R m w.1 v.1
  | 0, w, v, h => by simp only [manyMost, List.mem_singleton] at h; subst h; exact ⟨0, Nat.le_refl _, rfl⟩
  | f + 1, w, v, h => by
    simp only [manyMost, List.mem_append, List.mem_flatMap, List.mem_filter, List.mem_singleton] at h
    rcases h with ⟨u, ⟨h1, _⟩, h2⟩ | rfl
    · obtain ⟨m, hm, hi⟩ := most_sound hb f u v h2
      exact ⟨m + 1, by omega, u.1, hb _ _ _ h1, hi⟩
    · exact ⟨0, by omega, rfl⟩

theorem least_sound {R : Nat → Nat → Prop} {body : Nat → Caps → List Way} (hb : ∀ i c w, w ∈ body i c → R i w.1) :
    ∀ (f : Nat) (w v : Way), v ∈ manyLeast body f w → ∃ m, m ≤ f ∧ Iter R m w.1 v.1
  | 0, w, v, h => by simp only [manyLeast, List.mem_singleton] at h; subst h; exact ⟨0, Nat.le_refl _, rfl⟩
  | f + 1, w, v, h => by
    simp only [manyLeast, List.mem_cons, List.mem_flatMap, List.mem_filter] at h
    rcases h with rfl | ⟨u, ⟨h1, _⟩, h2⟩
    · exact ⟨0, by omega, rfl⟩
    · obtain ⟨m, hm, hi⟩ := least_sound hb f u v h2
      exact ⟨m + 1, by omega, u.1, hb _ _ _ h1, hi⟩

theorem quant_sound {q : List Int} {r : Rx} {body : Nat → Caps → List Way} (hb : ∀ i c w, w ∈ body i c → Den q r i w.1) (k : Quant)
    (hk : (match k.hi with | none => true | some h => decide (k.lo ≤ h)) = true) (w v : Way)
    (h : v ∈ Quant.ways q.length k body w) : Den q (k.sem r) w.1 v.1 := by
  rw [quant_iter]
  have key : ∀ u, u ∈ must body k.lo w → (∃ m, m ≤ k.extra q.length ∧ Iter (Den q r) m u.1 v.1) →
      ∃ n, k.lo ≤ n ∧ (∀ h, k.hi = some h → n ≤ h) ∧ Iter (Den q r) n w.1 v.1 := by
    rintro u h1 ⟨m, hm, h2⟩
    refine ⟨k.lo + m, by omega, fun h e => ?_, iter_add (must_sound hb _ _ _ h1) h2⟩
    rw [e] at hk
    simp only [decide_eq_true_eq] at hk
    simp only [Quant.extra, e] at hm
    omega
  have most : v ∈ (must body k.lo w).flatMap (manyMost body (k.extra q.length)) →
      ∃ n, k.lo ≤ n ∧ (∀ h, k.hi = some h → n ≤ h) ∧ Iter (Den q r) n w.1 v.1 := by
    intro h
    obtain ⟨u, h1, h2⟩ := List.mem_flatMap.1 h
    exact key u h1 (most_sound hb _ _ _ h2)
  unfold Quant.ways at h
  simp only at h
  split at h
  · exact most h
  · obtain ⟨u, h1, h2⟩ := List.mem_flatMap.1 h
    exact key u h1 (least_sound hb _ _ _ h2)
  · exact most (List.mem_of_mem_take h)

theorem one_den {q : List Int} {S : Int → Bool} {i : Nat} {c : Caps} {j : Nat} :
    (∃ w ∈ one q S i c, w.1 = j) ↔ Den q (.cls S) i j := by
  unfold one
  simp only [Den]
  cases h : q[i]? with
  | none => simp
  | some x =>
    by_cases hx : S x = true
    · simp only [hx, if_true, List.mem_singleton, exists_eq_left, Option.some.injEq, exists_eq_left', and_true]
      exact eq_comm
    · simp [hx]

theorem nil_den {q : List Int} {dollar : Bool} {i j : Nat} : j ∈ (Sq.nil dollar).picks q i ↔ Den q (Sq.nil dollar).sem i j := by
  cases dollar with
  | false => simp [Sq.picks, Sq.sem, Den, eq_comm]
  | true =>
    simp only [Sq.picks, Sq.sem, Den, if_true]
    refine ⟨fun h => ?_, fun h => ?_⟩
    · split at h
      · rename_i e; simp at h; exact Or.inl ⟨e, h⟩
      · split at h
        · rename_i e; simp at h; exact Or.inr ⟨e, h⟩
        · simp at h
    · rcases h with ⟨h1, rfl⟩ | ⟨h1, rfl⟩
      · simp [h1]
      · have : i ≠ q.length := by rintro rfl; simp at h1
        simp [this, h1]

mutual
theorem atom_sound (q : List Int) : ∀ (a : Atom), a.fair = true → ∀ (n i : Nat) (c : Caps) (w : Way), w ∈ a.ways q n i c → Den q a.sem i w.1
  | .group capture as, hf, n, i, c, w, h => by
    simp only [Atom.fair] at hf
    simp only [Atom.ways] at h
    simp only [Atom.sem]
    split at h
    · obtain ⟨v, h1, rfl⟩ := List.mem_map.1 h
      exact alts_sound q as hf _ _ _ v h1
    · exact alts_sound q as hf _ _ _ _ h
  | .chr x, _, n, i, c, w, h => one_den.1 ⟨w, h, rfl⟩
  | .esc x, _, n, i, c, w, h => one_den.1 ⟨w, h, rfl⟩
  | .dot, _, n, i, c, w, h => one_den.1 ⟨w, h, rfl⟩
  | .hex x y, _, n, i, c, w, h => one_den.1 ⟨w, h, rfl⟩
  | .oct x y z, _, n, i, c, w, h => one_den.1 ⟨w, h, rfl⟩
  | .cls neg items dash, _, n, i, c, w, h => one_den.1 ⟨w, h, rfl⟩
theorem sq_sound (q : List Int) : ∀ (s : Sq), s.fair = true → ∀ (n i : Nat) (c : Caps) (w : Way), w ∈ s.ways q n i c → Den q s.sem i w.1
  | .nil dollar, _, n, i, c, w, h => by
    simp only [Sq.ways] at h
    obtain ⟨e, h1, rfl⟩ := List.mem_map.1 h
    exact nil_den.1 h1
  | .cons a k s, hf, n, i, c, w, h => by
    simp only [Sq.fair, Bool.and_eq_true] at hf
    simp only [Sq.ways] at h
    obtain ⟨u, h1, h2⟩ := List.mem_flatMap.1 h
    exact ⟨u.1, quant_sound (fun i c w h => atom_sound q a hf.1.1 n i c w h) k hf.1.2 (i, c) u h1,
      sq_sound q s hf.2 _ _ _ _ h2⟩
theorem alts_sound (q : List Int) : ∀ (as : Alts), as.fair = true → ∀ (n i : Nat) (c : Caps) (w : Way), w ∈ as.ways q n i c → Den q as.sem i w.1
  | .last hat s, hf, n, i, c, w, h => by
    simp only [Alts.fair] at hf
    simp only [Alts.ways] at h
    simp only [Alts.sem]
    exact hat_sound q hat s n i c w (fun h => sq_sound q s hf n i c w h) h
  | .more hat s as, hf, n, i, c, w, h => by
    simp only [Alts.fair, Bool.and_eq_true] at hf
    simp only [Alts.ways, List.mem_append] at h
    simp only [Alts.sem, Den]
    rcases h with h | h
    · exact Or.inl (hat_sound q hat s n i c w (fun h => sq_sound q s hf.1 n i c w h) h)
    · exact Or.inr (alts_sound q as hf.2 _ _ _ _ h)
theorem hat_sound (q : List Int) : ∀ (hat : Bool) (s : Sq) (n i : Nat) (c : Caps) (w : Way), (w ∈ s.ways q n i c → Den q s.sem i w.1) →
    w ∈ (if hat && i != 0 then [] else s.ways q n i c) → Den q (if hat then .seq .bos s.sem else s.sem) i w.1
  | false, s, n, i, c, w, hs, h => by simpa using hs (by simpa using h)
  | true, s, n, i, c, w, hs, h => by
    simp only [Bool.true_and] at h
    split at h
    · simp at h
    · rename_i hi
      simp only [bne_iff_ne, ne_eq, Decidable.not_not] at hi
      subst hi
      exact ⟨0, ⟨rfl, rfl⟩, hs h⟩
end

/-! ## completeness -/

theorem must_complete {R : Nat → Nat → Prop} {L : Nat} {body : Nat → Caps → List Way} (hR : ∀ i j, R i j → i ≤ j ∧ (i ≤ L → j ≤ L))
    (hb : ∀ i j c, i ≤ L → R i j → ∃ w ∈ body i c, w.1 = j) : ∀ (n i j : Nat) (c : Caps), i ≤ L → Iter R n i j → ∃ w ∈ must body n (i, c), w.1 = j
  | 0, i, j, c, _, h => ⟨(i, c), by simp [must], h⟩
  | n + 1, i, j, c, hi, ⟨k, h1, h2⟩ => by
    obtain ⟨⟨k', c'⟩, hw, he⟩ := hb i k c hi h1
    simp only at he; subst he
    obtain ⟨v, hv, he⟩ := must_complete hR hb n k' j c' ((hR _ _ h1).2 hi) h2
    exact ⟨v, List.mem_flatMap.2 ⟨_, hw, hv⟩, he⟩

theorem many_complete {R : Nat → Nat → Prop} {L : Nat} {body : Nat → Caps → List Way} (hR : ∀ i j, R i j → i ≤ j ∧ (i ≤ L → j ≤ L))
    (hb : ∀ i j c, i ≤ L → R i j → ∃ w ∈ body i c, w.1 = j) : ∀ (m f i j : Nat) (c : Caps), i ≤ L → (m ≤ f ∨ L - i ≤ f) → Iter R m i j →
      (∃ w ∈ manyMost body f (i, c), w.1 = j) ∧ (∃ w ∈ manyLeast body f (i, c), w.1 = j)
  | 0, f, i, j, c, _, _, h => by
    simp only [Iter] at h; subst h
    refine ⟨⟨(i, c), ?_, rfl⟩, ⟨(i, c), ?_, rfl⟩⟩ <;> cases f <;> simp [manyMost, manyLeast]
  | m + 1, f, i, j, c, hi, hf, ⟨k, h1, h2⟩ => by
    have hk := hR _ _ h1
    by_cases e : k = i
    · subst e
      exact many_complete hR hb m f k j c hi (by omega) h2
    · obtain ⟨⟨k', c'⟩, hw, he⟩ := hb i k c hi h1
      simp only at he; subst he
      have hkL := hk.2 hi
      obtain ⟨g, rfl⟩ : ∃ g, f = g + 1 := ⟨f - 1, by omega⟩
      obtain ⟨⟨v, hv, hv'⟩, ⟨u, hu, hu'⟩⟩ := many_complete hR hb m g k' j c' hkL (by omega) h2
      have hfil : (k', c') ∈ (body i c).filter (fun v => decide (i < v.1)) := List.mem_filter.2 ⟨hw, by simp; omega⟩
      refine ⟨⟨v, ?_, hv'⟩, ⟨u, ?_, hu'⟩⟩
      · simp only [manyMost, List.mem_append]
        exact Or.inl (List.mem_flatMap.2 ⟨_, hfil, hv⟩)
      · simp only [manyLeast, List.mem_cons]
        exact Or.inr (List.mem_flatMap.2 ⟨_, hfil, hu⟩)

theorem iter_split {R : Nat → Nat → Prop} : ∀ (m n i j : Nat), Iter R (m + n) i j → ∃ k, Iter R m i k ∧ Iter R n k j
  | 0, n, i, j, h => ⟨i, rfl, by simpa using h⟩
  | m + 1, n, i, j, h => by
    rw [show m + 1 + n = (m + n) + 1 by omega] at h
    obtain ⟨k, h1, h2⟩ := h
    obtain ⟨l, h3, h4⟩ := iter_split m n k j h2
    exact ⟨l, ⟨k, h1, h3⟩, h4⟩

theorem quant_complete {q : List Int} {r : Rx} {body : Nat → Caps → List Way} (hb : ∀ i j c, i ≤ q.length → Den q r i j → ∃ w ∈ body i c, w.1 = j)
    (k : Quant) (hy : (match k.mode with | .possessive => false | _ => true) = true) (i j : Nat) (c : Caps) (hi : i ≤ q.length)
    (h : Den q (k.sem r) i j) : ∃ w ∈ Quant.ways q.length k body (i, c), w.1 = j := by
  rw [quant_iter] at h
  obtain ⟨n, h1, h2, h3⟩ := h
  have hR : ∀ i j, Den q r i j → i ≤ j ∧ (i ≤ q.length → j ≤ q.length) := den_le q r
  obtain ⟨m, rfl⟩ : ∃ m, n = k.lo + m := ⟨n - k.lo, by omega⟩
  obtain ⟨x, h4, h5⟩ := iter_split _ _ _ _ h3
  obtain ⟨⟨x', c'⟩, hw, he⟩ := must_complete hR hb k.lo i x c hi h4
  simp only at he; subst he
  have hx : x' ≤ q.length := by
    have : ∀ (n a b : Nat), Iter (Den q r) n a b → a ≤ q.length → b ≤ q.length := by
      intro n
      induction n with
      | zero => intro a b h ha; simp only [Iter] at h; omega
      | succ n ih => rintro a b ⟨y, h6, h7⟩ ha; exact ih _ _ h7 ((hR _ _ h6).2 ha)
    exact this _ _ _ h4 hi
  have hf : m ≤ k.extra q.length ∨ q.length - x' ≤ k.extra q.length := by
    unfold Quant.extra
    cases e : k.hi with
    | none => exact Or.inr (by simp)
    | some h => have := h2 h e; exact Or.inl (by simp only; omega)
  obtain ⟨⟨v, hv, hv'⟩, ⟨u, hu, hu'⟩⟩ := many_complete hR hb m _ x' j c' hx hf h5
  unfold Quant.ways
  simp only
  split
  · exact ⟨v, List.mem_flatMap.2 ⟨_, hw, hv⟩, hv'⟩
  · exact ⟨u, List.mem_flatMap.2 ⟨_, hw, hu⟩, hu'⟩
  · rename_i e; rw [e] at hy; cases hy

mutual
theorem atom_complete (q : List Int) : ∀ (a : Atom), a.yields = true → ∀ (n i j : Nat) (c : Caps), i ≤ q.length → Den q a.sem i j →
    ∃ w ∈ a.ways q n i c, w.1 = j
  | .group capture as, hf, n, i, j, c, hi, h => by
    simp only [Atom.yields] at hf
    simp only [Atom.sem] at h
    simp only [Atom.ways]
    split
    · obtain ⟨w, hw, he⟩ := alts_complete q as hf (n + 1) i j c hi h
      exact ⟨_, List.mem_map.2 ⟨w, hw, rfl⟩, he⟩
    · exact alts_complete q as hf n i j c hi h
  | .chr x, _, n, i, j, c, _, h => one_den.2 h
  | .esc x, _, n, i, j, c, _, h => one_den.2 h
  | .dot, _, n, i, j, c, _, h => one_den.2 h
  | .hex x y, _, n, i, j, c, _, h => one_den.2 h
  | .oct x y z, _, n, i, j, c, _, h => one_den.2 h
  | .cls neg items dash, _, n, i, j, c, _, h => one_den.2 h
theorem sq_complete (q : List Int) : ∀ (s : Sq), s.yields = true → ∀ (n i j : Nat) (c : Caps), i ≤ q.length → Den q s.sem i j →
    ∃ w ∈ s.ways q n i c, w.1 = j
  | .nil dollar, _, n, i, j, c, _, h => ⟨(j, c), by simp only [Sq.ways]; exact List.mem_map.2 ⟨j, nil_den.2 h, rfl⟩, rfl⟩
  | .cons a k s, hf, n, i, j, c, hi, h => by
    simp only [Sq.yields, Bool.and_eq_true] at hf
    obtain ⟨x, h1, h2⟩ := h
    obtain ⟨⟨x', c'⟩, hw, he⟩ := quant_complete (fun i j c hi h => atom_complete q a hf.1.1 n i j c hi h) k hf.1.2 i x c hi h1
    simp only at he; subst he
    obtain ⟨v, hv, hv'⟩ := sq_complete q s hf.2 (n + a.count) x' j c' ((den_le q _ _ _ h1).2 hi) h2
    exact ⟨v, by simp only [Sq.ways]; exact List.mem_flatMap.2 ⟨_, hw, hv⟩, hv'⟩
theorem alts_complete (q : List Int) : ∀ (as : Alts), as.yields = true → ∀ (n i j : Nat) (c : Caps), i ≤ q.length → Den q as.sem i j →
    ∃ w ∈ as.ways q n i c, w.1 = j
  | .last hat s, hf, n, i, j, c, hi, h => by
    simp only [Alts.yields] at hf
    simp only [Alts.sem] at h
    simp only [Alts.ways]
    exact hat_complete q hat s n i j c (fun h => sq_complete q s hf n i j c hi h) h
  | .more hat s as, hf, n, i, j, c, hi, h => by
    simp only [Alts.yields, Bool.and_eq_true] at hf
    simp only [Alts.sem, Den] at h
    simp only [Alts.ways, List.mem_append]
    rcases h with h | h
    · obtain ⟨w, hw, he⟩ := hat_complete q hat s n i j c (fun h => sq_complete q s hf.1 n i j c hi h) h
      exact ⟨w, Or.inl hw, he⟩
    · obtain ⟨w, hw, he⟩ := alts_complete q as hf.2 (n + s.count) i j c hi h
      exact ⟨w, Or.inr hw, he⟩
theorem hat_complete (q : List Int) : ∀ (hat : Bool) (s : Sq) (n i j : Nat) (c : Caps), (Den q s.sem i j → ∃ w ∈ s.ways q n i c, w.1 = j) →
    Den q (if hat then .seq .bos s.sem else s.sem) i j → ∃ w ∈ (if hat && i != 0 then [] else s.ways q n i c), w.1 = j
  | false, s, n, i, j, c, hs, h => by simpa using hs (by simpa using h)
  | true, s, n, i, j, c, hs, h => by
    simp only [if_true] at h
    obtain ⟨x, ⟨rfl, rfl⟩, h2⟩ := h
    simpa using hs h2
end

end ERegex

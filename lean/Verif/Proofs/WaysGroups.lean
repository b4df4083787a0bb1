import Verif.Spec.Sure
import Verif.Spec.Texts
import Verif.Spec.Backtrack
import Verif.Proofs.WaysDen
/-!
# What the captures of a way are

In every way to match a pattern, with groups nested to any depth, what group `n` has captured is a match of the content of the `n`-th group.
-/
set_option autoImplicit false
namespace ERegex
open ERegex.Spec

/-! ## an invariant of the captures is one of the ways of a repetition -/

theorem must_caps {B : Nat → Caps → List Way} {I : Caps → Prop} (hB : ∀ i c, I c → ∀ w ∈ B i c, I w.2) : ∀ (n : Nat) (w : Way), I w.2 → ∀ v ∈ must B n w, I v.2
  | 0, w, h, v, hv => by simp only [must, List.mem_singleton] at hv; subst hv; exact h
  | n + 1, w, h, v, hv => by
    simp only [must, List.mem_flatMap] at hv
    obtain ⟨u, hu, hv⟩ := hv
    exact must_caps hB n u (hB _ _ h u hu) v hv

theorem most_caps {B : Nat → Caps → List Way} {I : Caps → Prop} (hB : ∀ i c, I c → ∀ w ∈ B i c, I w.2) : ∀ (n : Nat) (w : Way), I w.2 → ∀ v ∈ manyMost B n w, I v.2
  | 0, w, h, v, hv => by simp only [manyMost, List.mem_singleton] at hv; subst hv; exact h
  | n + 1, w, h, v, hv => by
    simp only [manyMost, List.mem_append, List.mem_flatMap, List.mem_filter, List.mem_singleton] at hv
    rcases hv with ⟨u, ⟨hu, _⟩, hv⟩ | rfl
    · exact most_caps hB n u (hB _ _ h u hu) v hv
    · exact h

theorem least_caps {B : Nat → Caps → List Way} {I : Caps → Prop} (hB : ∀ i c, I c → ∀ w ∈ B i c, I w.2) : ∀ (n : Nat) (w : Way), I w.2 → ∀ v ∈ manyLeast B n w, I v.2
  | 0, w, h, v, hv => by simp only [manyLeast, List.mem_singleton] at hv; subst hv; exact h
  | n + 1, w, h, v, hv => by
    simp only [manyLeast, List.mem_cons, List.mem_flatMap, List.mem_filter] at hv
    rcases hv with rfl | ⟨u, ⟨hu, _⟩, hv⟩
    · exact h
    · exact least_caps hB n u (hB _ _ h u hu) v hv

theorem quant_caps {B : Nat → Caps → List Way} {I : Caps → Prop} (hB : ∀ i c, I c → ∀ w ∈ B i c, I w.2) (len : Nat) (k : Quant) (w : Way) (h : I w.2) :
    ∀ v ∈ k.ways len B w, I v.2 := by
  have hm : ∀ v ∈ (must B k.lo w).flatMap (manyMost B (k.extra len)), I v.2 := by
    intro v hv
    rw [List.mem_flatMap] at hv
    obtain ⟨u, hu, hv⟩ := hv
    exact most_caps hB _ u (must_caps hB _ w h u hu) v hv
  intro v hv
  unfold Quant.ways at hv
  split at hv
  · exact hm v hv
  · rw [List.mem_flatMap] at hv
    obtain ⟨u, hu, hv⟩ := hv
    exact least_caps hB _ u (must_caps hB _ w h u hu) v hv
  · exact hm v (List.mem_of_mem_take hv)

/-! ## the groups -/

mutual
theorem atom_groups_count : ∀ (a : Atom), a.groups.length = a.count
  | .group true as => by simp [Atom.groups, Atom.count, alts_groups_count as, Nat.add_comm]
  | .group false as => by simp [Atom.groups, Atom.count, alts_groups_count as]
  | .chr _ | .esc _ | .dot | .hex .. | .oct .. | .cls .. => rfl
theorem sq_groups_count : ∀ (s : Sq), s.groups.length = s.count
  | .nil _ => rfl
  | .cons a _ s => by simp [Sq.groups, Sq.count, atom_groups_count a, sq_groups_count s]
theorem alts_groups_count : ∀ (as : Alts), as.groups.length = as.count
  | .last _ s => sq_groups_count s
  | .more _ s as => by simp [Alts.groups, Alts.count, sq_groups_count s, alts_groups_count as]
end

/-- What group `k` has captured is a match of its content `G k`. -/
def Caught (q : List Int) (G : Nat → Option Alts) (c : Caps) : Prop := ∀ k b x, G k = some b → c k = some x → Den q b.sem x.1 x.2

/-- The groups of a part of the pattern whose first group is `n`. -/
def Placed (G : Nat → Option Alts) (n : Nat) (l : List Alts) : Prop := ∀ k b, l[k]? = some b → G (n + k) = some b

theorem placed_append {G : Nat → Option Alts} {n : Nat} {l l' : List Alts} (h : Placed G n (l ++ l')) : Placed G n l ∧ Placed G (n + l.length) l' := by
  constructor
  · intro k b hk
    have : k < l.length := by
      rcases Nat.lt_or_ge k l.length with h1 | h1
      · exact h1
      · rw [List.getElem?_eq_none h1] at hk; cases hk
    exact h k b (by rw [List.getElem?_append_left this]; exact hk)
  · intro k b hk
    have := h (l.length + k) b (by rw [List.getElem?_append_right (by omega), Nat.add_sub_cancel_left]; exact hk)
    rwa [← Nat.add_assoc] at this

theorem one_caps (q : List Int) (S : Int → Bool) (i : Nat) (c : Caps) : ∀ w ∈ one q S i c, w.2 = c := by
  intro w hw
  unfold one at hw
  split at hw
  · cases hw
  · split at hw
    · simp only [List.mem_singleton] at hw; subst hw; rfl
    · cases hw

mutual
theorem atom_caught (q : List Int) (G : Nat → Option Alts) : ∀ (a : Atom), a.fair = true → ∀ n, Placed G n a.groups → ∀ i c, Caught q G c → ∀ w ∈ a.ways q n i c, Caught q G w.2
  | .group true as, hf, n, hp, i, c, hc, w, hw => by
    simp only [Atom.ways, if_true, List.mem_map] at hw
    obtain ⟨v, hv, rfl⟩ := hw
    have hf' : as.fair = true := hf
    have h0 : G n = some as := by have := hp 0 as rfl; simpa using this
    have hp' : Placed G (n + 1) as.groups := fun k b hk => by
      have := hp (k + 1) b (by simpa [Atom.groups] using hk)
      rwa [show n + (k + 1) = n + 1 + k by omega] at this
    have h1 := alts_caught q G as hf' (n + 1) hp' i c hc v hv
    have h2 := alts_sound q as hf' (n + 1) i c v hv
    intro k b x hb hx
    simp only [Caps.with] at hx
    split at hx
    · rename_i e
      subst e
      rw [h0] at hb
      cases hb; cases hx
      exact h2
    · exact h1 k b x hb hx
  | .group false as, hf, n, hp, i, c, hc, w, hw => by
    simp only [Atom.ways, Bool.false_eq_true, if_false] at hw
    exact alts_caught q G as hf n hp i c hc w hw
  | .chr _, _, n, _, i, c, hc, w, hw => by rw [one_caps _ _ _ _ w hw]; exact hc
  | .esc _, _, n, _, i, c, hc, w, hw => by rw [one_caps _ _ _ _ w hw]; exact hc
  | .dot, _, n, _, i, c, hc, w, hw => by rw [one_caps _ _ _ _ w hw]; exact hc
  | .hex .., _, n, _, i, c, hc, w, hw => by rw [one_caps _ _ _ _ w hw]; exact hc
  | .oct .., _, n, _, i, c, hc, w, hw => by rw [one_caps _ _ _ _ w hw]; exact hc
  | .cls .., _, n, _, i, c, hc, w, hw => by rw [one_caps _ _ _ _ w hw]; exact hc
theorem sq_caught (q : List Int) (G : Nat → Option Alts) : ∀ (s : Sq), s.fair = true → ∀ n, Placed G n s.groups → ∀ i c, Caught q G c → ∀ w ∈ s.ways q n i c, Caught q G w.2
  | .nil d, _, n, _, i, c, hc, w, hw => by
    simp only [Sq.ways, List.mem_map] at hw
    obtain ⟨e, _, rfl⟩ := hw
    exact hc
  | .cons a k s, hf, n, hp, i, c, hc, w, hw => by
    simp only [Sq.fair, Bool.and_eq_true] at hf
    obtain ⟨h1, h2⟩ := placed_append (l := a.groups) hp
    rw [atom_groups_count] at h2
    simp only [Sq.ways, List.mem_flatMap] at hw
    obtain ⟨v, hv, hw⟩ := hw
    have := quant_caps (I := Caught q G) (fun i c hc w hw => atom_caught q G a hf.1.1 n h1 i c hc w hw) q.length k (i, c) hc v hv
    exact sq_caught q G s hf.2 _ h2 _ _ this w hw
theorem alts_caught (q : List Int) (G : Nat → Option Alts) : ∀ (as : Alts), as.fair = true → ∀ n, Placed G n as.groups → ∀ i c, Caught q G c → ∀ w ∈ as.ways q n i c, Caught q G w.2
  | .last hat s, hf, n, hp, i, c, hc, w, hw => by
    simp only [Alts.ways] at hw
    split at hw
    · cases hw
    · exact sq_caught q G s hf n hp i c hc w hw
  | .more hat s as, hf, n, hp, i, c, hc, w, hw => by
    simp only [Alts.fair, Bool.and_eq_true] at hf
    obtain ⟨h1, h2⟩ := placed_append (l := s.groups) hp
    rw [sq_groups_count] at h2
    simp only [Alts.ways, List.mem_append] at hw
    rcases hw with hw | hw
    · split at hw
      · cases hw
      · exact sq_caught q G s hf.1 n h1 i c hc w hw
    · exact alts_caught q G as hf.2 _ h2 i c hc w hw
end

/-- What the `n`-th group has captured in a way to match a pattern is a match of its content. -/
theorem ways_caught (q : List Int) (as : Alts) (hf : as.fair = true) {i : Nat} {w : Way} (hw : w ∈ as.ways q 0 i (fun _ => none)) {n : Nat} {b : Alts} {x : Nat × Nat}
    (hb : as.groups[n]? = some b) (hx : w.2 n = some x) : Den q b.sem x.1 x.2 :=
  alts_caught q (fun k => as.groups[k]?) as hf 0 (fun k b h => by simpa using h) i _ (fun k b x _ h => by cases h) w hw n b x hb hx

end ERegex

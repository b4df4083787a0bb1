import Verif.Spec.Texts
import Verif.Model.Result
/-! # Positions and texts; reading a view -/
set_option autoImplicit false
namespace ERegex
open ERegex.Spec

/-- The characters `i … j-1`. -/
def part (q : List Int) (i j : Nat) : List Int := (q.drop i).take (j - i)

theorem part_append {q : List Int} {i k j : Nat} (h1 : i ≤ k) (h2 : k ≤ j) : part q i k ++ part q k j = part q i j := by
  unfold part
  have e1 : j - i = (k - i) + (j - k) := by omega
  have e2 : q.drop k = (q.drop i).drop (k - i) := by rw [List.drop_drop]; congr 1; omega
  rw [e1, List.take_add, e2]

theorem part_self (q : List Int) (i : Nat) : part q i i = [] := by simp [part]

theorem part_length {q : List Int} {i j : Nat} (h : j ≤ q.length) : (part q i j).length = j - i := by
  simp only [part, List.length_take, List.length_drop]; omega

theorem part_one {q : List Int} {i : Nat} {c : Int} (h : q[i]? = some c) : part q i (i + 1) = [c] := by
  unfold part
  have hi := (List.getElem?_eq_some_iff.1 h)
  obtain ⟨hl, he⟩ := hi
  rw [List.drop_eq_getElem_cons hl, he]
  simp

theorem iter_power {q : List Int} {r : Rx} (hd : ∀ i j, Den q r i j → i ≤ j ∧ r.Stands (part q i j)) :
    ∀ n i j, Iter (Den q r) n i j → i ≤ j ∧ Power r.Stands n (part q i j)
  | 0, i, j, h => by
    simp only [Iter] at h; subst h; exact ⟨Nat.le_refl _, by simp [Power, part_self]⟩
  | n + 1, i, j, h => by
    obtain ⟨k, h1, h2⟩ := h
    obtain ⟨a1, a2⟩ := hd _ _ h1
    obtain ⟨b1, b2⟩ := iter_power hd n k j h2
    exact ⟨by omega, part q i k, part q k j, (part_append a1 b1).symm, a2, b2⟩

/-- What matches at a position is, as a text, one of the texts. -/
theorem den_stands (q : List Int) : ∀ (r : Rx), r.floats = true → ∀ i j, Den q r i j → i ≤ j ∧ r.Stands (part q i j)
  | .eps, _, i, j, h => by simp only [Den] at h; subst h; exact ⟨Nat.le_refl _, part_self _ _⟩
  | .fail, _, _, _, h => by simp [Den] at h
  | .lit s, _, i, j, h => by
    obtain ⟨h1, h2⟩ := h
    refine ⟨by omega, ?_⟩
    simp only [Rx.Stands]
    apply List.ext_getElem?
    intro k
    unfold part
    rw [List.getElem?_take]
    by_cases hk : k < s.length
    · rw [if_pos (by omega), List.getElem?_drop, h2 k hk]
    · rw [if_neg (by omega), List.getElem?_eq_none (by omega)]
  | .cls p, _, i, j, h => by
    obtain ⟨h1, c, h2, h3⟩ := h
    subst h1
    exact ⟨by omega, c, part_one h2, h3⟩
  | .bos, hf, _, _, _ => by simp [Rx.floats] at hf
  | .eol, hf, _, _, _ => by simp [Rx.floats] at hf
  | .neg _, hf, _, _, _ => by simp [Rx.floats] at hf
  | .seq r s, hf, i, j, h => by
    simp only [Rx.floats, Bool.and_eq_true] at hf
    obtain ⟨k, h1, h2⟩ := h
    obtain ⟨a1, a2⟩ := den_stands q r hf.1 _ _ h1
    obtain ⟨b1, b2⟩ := den_stands q s hf.2 _ _ h2
    exact ⟨by omega, _, _, (part_append a1 b1).symm, a2, b2⟩
  | .alt r s, hf, i, j, h => by
    simp only [Rx.floats, Bool.and_eq_true] at hf
    rcases h with h | h
    · exact ⟨(den_stands q r hf.1 _ _ h).1, Or.inl (den_stands q r hf.1 _ _ h).2⟩
    · exact ⟨(den_stands q s hf.2 _ _ h).1, Or.inr (den_stands q s hf.2 _ _ h).2⟩
  | .rep r lo hi, hf, i, j, h => by
    simp only [Rx.floats] at hf
    obtain ⟨n, h1, h2, h3⟩ := h
    obtain ⟨a1, a2⟩ := iter_power (den_stands q r hf) n i j h3
    exact ⟨a1, n, h1, h2, a2⟩

theorem take_left {q u v : List Int} {i : Nat} (h : (q.drop i).take (u ++ v).length = u ++ v) :
    (q.drop i).take u.length = u ∧ (q.drop (i + u.length)).take v.length = v := by
  rw [List.length_append, List.take_add, List.drop_drop] at h
  have hl : ((q.drop i).take u.length).length = u.length := by
    have := congrArg List.length h
    simp only [List.length_append, List.length_take, List.length_drop] at this ⊢
    omega
  exact List.append_inj h hl

theorem power_iter {q : List Int} {r : Rx} (hd : ∀ w i, r.Stands w → (q.drop i).take w.length = w → Den q r i (i + w.length)) :
    ∀ n w i, Power r.Stands n w → (q.drop i).take w.length = w → Iter (Den q r) n i (i + w.length)
  | 0, w, i, h, _ => by simp only [Power] at h; subst h; simp [Iter]
  | n + 1, w, i, h, ht => by
    obtain ⟨u, v, rfl, h1, h2⟩ := h
    obtain ⟨t1, t2⟩ := take_left ht
    refine ⟨_, hd u i h1 t1, ?_⟩
    have := power_iter hd n v _ h2 t2
    rwa [List.length_append, ← Nat.add_assoc]

/-- A text of the regular expression matches wherever it occurs. -/
theorem stands_den (q : List Int) : ∀ (r : Rx) (w : List Int) (i : Nat), r.Stands w → (q.drop i).take w.length = w →
    Den q r i (i + w.length)
  | .eps, w, i, h, _ => by simp only [Rx.Stands] at h; subst h; simp [Den]
  | .fail, _, _, h, _ => by simp [Rx.Stands] at h
  | .lit s, w, i, h, ht => by
    simp only [Rx.Stands] at h; subst h
    refine ⟨rfl, fun k hk => ?_⟩
    have := congrArg (fun l => l[k]?) ht
    simp only [List.getElem?_take, if_pos hk, List.getElem?_drop] at this
    exact this
  | .cls p, w, i, h, ht => by
    obtain ⟨c, rfl, hp⟩ := h
    refine ⟨rfl, c, ?_, hp⟩
    have := congrArg (fun l => l[0]?) ht
    simpa [List.getElem?_take, List.getElem?_drop] using this
  | .bos, _, _, h, _ => by simp [Rx.Stands] at h
  | .eol, _, _, h, _ => by simp [Rx.Stands] at h
  | .neg _, _, _, h, _ => by simp [Rx.Stands] at h
  | .seq r s, w, i, h, ht => by
    obtain ⟨u, v, rfl, h1, h2⟩ := h
    obtain ⟨t1, t2⟩ := take_left ht
    refine ⟨_, stands_den q r u i h1 t1, ?_⟩
    have := stands_den q s v _ h2 t2
    rwa [List.length_append, ← Nat.add_assoc]
  | .alt r s, w, i, h, ht => by
    rcases h with h | h
    · exact Or.inl (stands_den q r w i h ht)
    · exact Or.inr (stands_den q s w i h ht)
  | .rep r lo hi, w, i, h, ht => by
    obtain ⟨n, h1, h2, h3⟩ := h
    exact ⟨n, h1, h2, power_iter (stands_den q r) n w i h3 ht⟩

/-- A byte of the query. -/
theorem read_at {cx : Ctx} {i : Nat} (h : i < cx.query.length) : cx.read (i : Int) = some cx.query[i] := by
  unfold Ctx.read
  rw [if_neg (by omega)]
  have e : ((i : Int) + (cx.pre.length : Int)).toNat = cx.pre.length + i := by omega
  rw [e, List.append_assoc, List.getElem?_append_right (by omega), Nat.add_sub_cancel_left, List.getElem?_append_left h,
    List.getElem?_eq_getElem h]

theorem mapM_get {α β : Type} (f : α → Option β) (g : α → β) : ∀ (l : List α), (∀ x ∈ l, f x = some (g x)) → l.mapM f = some (l.map g)
  | [], _ => rfl
  | x :: l, h => by
    rw [List.mapM_cons, h x (by simp), mapM_get f g l (fun y hy => h y (by simp [hy]))]
    rfl

theorem part_range {q : List Int} {i j : Nat} (h : j ≤ q.length) :
    (List.range (j - i)).map (fun k => q.getD (i + k) 0) = part q i j := by
  apply List.ext_getElem?
  intro k
  unfold part
  rw [List.getElem?_take, List.getElem?_map]
  by_cases hk : k < j - i
  · rw [if_pos hk, List.getElem?_range hk, List.getElem?_drop]
    simp [List.getElem?_eq_getElem (show i + k < q.length by omega)]
  · rw [if_neg hk, List.getElem?_eq_none (by simp; omega)]; rfl

/-- Reading a view inside the query gives the characters of the query. -/
theorem viewBytes_part {cx : Ctx} {i j : Nat} (h : j ≤ cx.query.length) :
    viewBytes cx (some ((i : Int), (j : Int))) = some (part cx.query i j) := by
  simp only [viewBytes]
  rw [mapM_get _ (fun k => cx.query.getD (i + k) 0)]
  · have e : ((j : Int) - (i : Int)).toNat = j - i := by omega
    rw [e, part_range h]
  · intro k hk
    have hk' := List.mem_range.1 hk
    have hlt : i + k < cx.query.length := by omega
    have : ((i : Int) + (k : Int)) = ((i + k : Nat) : Int) := by omega
    rw [this, read_at hlt]
    simp [List.getElem?_eq_getElem hlt]

theorem part_split {q : List Int} {i j : Nat} (h1 : i ≤ j) : q = q.take i ++ part q i j ++ q.drop j := by
  unfold part
  have e : q.drop j = (q.drop i).drop (j - i) := by rw [List.drop_drop]; congr 1; omega
  rw [e, List.append_assoc, List.take_append_drop, List.take_append_drop]

theorem occurs_take {q u v w : List Int} (h : q = u ++ v ++ w) : (q.drop u.length).take v.length = v := by
  subst h; simp

end ERegex

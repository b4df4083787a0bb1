import Verif.Proofs.CommitWays
import Verif.Proofs.Repeat
/-!
# The matcher without backtracking: ends, captures, where it fails
-/
set_option autoImplicit false
namespace ERegex
open ERegex.Spec

theorem must_rel {g : Nat → Caps → Option Way} {P : Way → Way → Prop} (hr : ∀ w, P w w) (ht : ∀ u v w, P u v → P v w → P u w)
    (hg : ∀ w v, g w.1 w.2 = some v → P w v) : ∀ (n : Nat) (w v : Way), mustG g n w = some v → P w v
  | 0, w, v, e => by simp only [mustG, Option.some.injEq] at e; subst e; exact hr _
  | n + 1, w, v, e => by
    simp only [mustG, Option.bind_eq_some_iff] at e
    obtain ⟨u, h1, h2⟩ := e
    exact ht _ _ _ (hg w u h1) (must_rel hr ht hg n u v h2)

theorem grow_rel {g : Nat → Caps → Option Way} {P : Way → Way → Prop} (hr : ∀ w, P w w) (ht : ∀ u v w, P u v → P v w → P u w)
    (hg : ∀ w v, g w.1 w.2 = some v → P w v) : ∀ (n : Nat) (w : Way), P w (growG g n w)
  | 0, w => hr _
  | n + 1, w => by
    simp only [growG]
    cases e : g w.1 w.2 with
    | none => exact hr _
    | some v => exact ht _ _ _ (hg w v e) (grow_rel hr ht hg n v)

theorem quant_rel {g : Nat → Caps → Option Way} {P : Way → Way → Prop} (hr : ∀ w, P w w) (ht : ∀ u v w, P u v → P v w → P u w)
    (hg : ∀ w v, g w.1 w.2 = some v → P w v) {k : Quant} {len : Nat} {w v : Way} (e : k.go len g w = some v) : P w v := by
  simp only [Quant.go, Option.map_eq_some_iff] at e
  obtain ⟨u, h1, rfl⟩ := e
  exact ht _ _ _ (must_rel hr ht hg _ _ _ h1) (grow_rel hr ht hg _ _)

/-! ## ends -/

/-- The end lies between the begin and the end of the text. -/
def Fwd (q : List Int) (w v : Way) : Prop := w.1 ≤ q.length → w.1 ≤ v.1 ∧ v.1 ≤ q.length

theorem fwd_refl (q : List Int) (w : Way) : Fwd q w w := fun h => ⟨Nat.le_refl _, h⟩
theorem fwd_trans (q : List Int) (u v w : Way) (h1 : Fwd q u v) (h2 : Fwd q v w) : Fwd q u w := fun h =>
  ⟨Nat.le_trans (h1 h).1 (h2 (h1 h).2).1, (h2 (h1 h).2).2⟩

theorem one_some {q : List Int} {S : Int → Bool} {i : Nat} {c : Caps} {w : Way} (e : oneG q S i c = some w) :
    ∃ x, q[i]? = some x ∧ S x = true ∧ w = (i + 1, c) ∧ i < q.length := by
  unfold oneG at e
  split at e
  · cases e
  · rename_i x hx
    split at e
    · rename_i hs
      simp only [Option.some.injEq] at e
      exact ⟨x, hx, hs, e.symm, (List.getElem?_eq_some_iff.1 hx).1⟩
    · cases e

theorem one_none {q : List Int} {S : Int → Bool} {i : Nat} {c : Caps} (e : oneG q S i c = none) (x : Int) (hx : q[i]? = some x) : S x = false := by
  unfold oneG at e
  rw [hx] at e
  simp only at e
  split at e
  · cases e
  · rename_i h; simpa using h

theorem one_fwd {q : List Int} {S : Int → Bool} {w v : Way} (e : oneG q S w.1 w.2 = some v) : Fwd q w v := by
  obtain ⟨x, _, _, rfl, h⟩ := one_some e
  exact fun _ => ⟨Nat.le_succ _, h⟩

theorem nil_some {q : List Int} {n i : Nat} {c : Caps} {d : Bool} {v : Way} (e : (Sq.nil d).go q n i c = some v) : v.2 = c ∧
    (v.1 = i ∨ d = true ∧ v.1 = i + 1 ∧ q[i]? = some 10) := by
  simp only [Sq.go, Option.map_eq_some_iff] at e
  obtain ⟨x, hx, rfl⟩ := e
  refine ⟨rfl, ?_⟩
  cases d with
  | false => simp [Sq.picks] at hx; exact .inl hx.symm
  | true =>
    simp only [Sq.picks] at hx
    split at hx
    · simp at hx; exact .inl hx.symm
    · split at hx
      · rename_i h; simp at hx; exact .inr ⟨rfl, hx.symm, by simpa using h⟩
      · simp at hx

theorem ite_none {b : Bool} {o : Option Way} {v : Way} (e : (if b then none else o) = some v) : b = false ∧ o = some v := by
  cases b
  · exact ⟨rfl, e⟩
  · cases e

/-- An alternation matches if one of its alternatives does. -/
theorem more_some {q : List Int} {n i : Nat} {c : Caps} {hat : Bool} {s : Sq} {as : Alts} {v : Way} (e : (Alts.more hat s as).go q n i c = some v) :
    s.go q n i c = some v ∨ as.go q (n + s.count) i c = some v := by
  simp only [Alts.go] at e
  split at e
  · rename_i w h
    simp only [Option.some.injEq] at e; subst e
    exact .inl (ite_none h).2
  · exact .inr e

mutual
theorem atom_fwd (q : List Int) : ∀ (a : Atom) (n : Nat) (w v : Way), a.go q n w.1 w.2 = some v → Fwd q w v
  | .group true as, n, w, v, e => by
    simp only [Atom.go, if_true, Option.map_eq_some_iff] at e
    obtain ⟨u, h1, rfl⟩ := e
    exact alts_fwd q as (n + 1) w u h1
  | .group false as, n, w, v, e => by
    simp only [Atom.go, Bool.false_eq_true, if_false] at e
    exact alts_fwd q as n w v e
  | .chr x, n, w, v, e => one_fwd e
  | .esc x, n, w, v, e => one_fwd e
  | .dot, n, w, v, e => one_fwd e
  | .hex x y, n, w, v, e => one_fwd e
  | .oct x y z, n, w, v, e => one_fwd e
  | .cls neg items dash, n, w, v, e => one_fwd e
theorem sq_fwd (q : List Int) : ∀ (s : Sq) (n : Nat) (w v : Way), s.go q n w.1 w.2 = some v → Fwd q w v
  | .nil d, n, w, v, e => by
    intro h
    obtain ⟨_, h1 | ⟨_, h1, h2⟩⟩ := nil_some e
    · omega
    · have := (List.getElem?_eq_some_iff.1 h2).1; omega
  | .cons a k s, n, w, v, e => by
    simp only [Sq.go, Option.bind_eq_some_iff] at e
    obtain ⟨u, h1, h2⟩ := e
    exact fwd_trans q _ _ _ (quant_rel (fwd_refl q) (fwd_trans q) (fun w v e => atom_fwd q a n w v e) h1) (sq_fwd q s _ u v h2)
theorem alts_fwd (q : List Int) : ∀ (as : Alts) (n : Nat) (w v : Way), as.go q n w.1 w.2 = some v → Fwd q w v
  | .last hat s, n, w, v, e => by
    simp only [Alts.go] at e
    exact sq_fwd q s n w v (ite_none e).2
  | .more hat s as, n, w, v, e => by
    rcases more_some e with e | e
    · exact sq_fwd q s n w v e
    · exact alts_fwd q as _ w v e
end

theorem must_feed {q : List Int} {g : Nat → Caps → Option Way} (hg : ∀ w v : Way, g w.1 w.2 = some v → w.1 ≤ q.length → w.1 < v.1 ∧ v.1 ≤ q.length) : ∀ (n : Nat) (w v : Way),
    mustG g n w = some v → w.1 ≤ q.length → w.1 + n ≤ v.1
  | 0, w, v, e, _ => by simp only [mustG, Option.some.injEq] at e; subst e; omega
  | n + 1, w, v, e, h => by
    simp only [mustG, Option.bind_eq_some_iff] at e
    obtain ⟨u, h1, h2⟩ := e
    have h3 := hg w u h1 h
    have h4 := must_feed hg n u v h2 h3.2
    omega

mutual
theorem atom_feed (q : List Int) : ∀ (a : Atom) (n : Nat) (w v : Way), a.go q n w.1 w.2 = some v → a.feeds = true → w.1 ≤ q.length → w.1 < v.1
  | .group true as, n, w, v, e, hf, h => by
    simp only [Atom.go, if_true, Option.map_eq_some_iff] at e
    obtain ⟨u, h1, rfl⟩ := e
    exact alts_feed q as (n + 1) w u h1 hf h
  | .group false as, n, w, v, e, hf, h => by
    simp only [Atom.go, Bool.false_eq_true, if_false] at e
    exact alts_feed q as n w v e hf h
  | .chr x, n, w, v, e, _, _ | .esc x, n, w, v, e, _, _ | .dot, n, w, v, e, _, _ | .hex x y, n, w, v, e, _, _ | .oct x y z, n, w, v, e, _, _
  | .cls neg items dash, n, w, v, e, _, _ => by
    obtain ⟨x, _, _, rfl, h⟩ := one_some e
    exact Nat.lt_succ_self _
theorem sq_feed (q : List Int) : ∀ (s : Sq) (n : Nat) (w v : Way), s.go q n w.1 w.2 = some v → s.feeds = true → w.1 ≤ q.length → w.1 < v.1
  | .nil d, n, w, v, e, hf, h => by simp [Sq.feeds] at hf
  | .cons a k s, n, w, v, e, hf, h => by
    simp only [Sq.go, Option.bind_eq_some_iff] at e
    obtain ⟨u, h1, h2⟩ := e
    have f1 := quant_rel (fwd_refl q) (fwd_trans q) (fun w v e => atom_fwd q a n w v e) h1 h
    have f2 := sq_fwd q s _ u v h2 f1.2
    simp only at f1
    simp only [Sq.feeds, Bool.or_eq_true, Bool.and_eq_true, bne_iff_ne] at hf
    rcases hf with ⟨hk, hf⟩ | hf
    · simp only [Quant.go, Option.map_eq_some_iff] at h1
      obtain ⟨x, h3, rfl⟩ := h1
      have := must_feed (q := q) (fun w v e hw => ⟨atom_feed q a n w v e hf hw, (atom_fwd q a n w v e hw).2⟩) _ _ _ h3 h
      have hx := (must_rel (fwd_refl q) (fwd_trans q) (fun w v e => atom_fwd q a n w v e) _ _ _ h3 h).2
      have := (grow_rel (fwd_refl q) (fwd_trans q) (fun w v e => atom_fwd q a n w v e) (k.extra q.length) x) hx
      simp only at *
      omega
    · have := sq_feed q s _ u v h2 hf f1.2
      omega
theorem alts_feed (q : List Int) : ∀ (as : Alts) (n : Nat) (w v : Way), as.go q n w.1 w.2 = some v → as.feeds = true → w.1 ≤ q.length → w.1 < v.1
  | .last hat s, n, w, v, e, hf, h => by
    simp only [Alts.go] at e
    exact sq_feed q s n w v (ite_none e).2 hf h
  | .more hat s as, n, w, v, e, hf, h => by
    simp only [Alts.feeds, Bool.and_eq_true] at hf
    rcases more_some e with e | e
    · exact sq_feed q s n w v e hf.1 h
    · exact alts_feed q as _ w v e hf.2 h
end

/-! ## what cannot fail -/

theorem must_total {g : Nat → Caps → Option Way} (hg : ∀ w : Way, ∃ v, g w.1 w.2 = some v) : ∀ (n : Nat) (w : Way), ∃ v, mustG g n w = some v
  | 0, w => ⟨w, rfl⟩
  | n + 1, w => by
    obtain ⟨v, hv⟩ := hg w
    obtain ⟨u, hu⟩ := must_total hg n v
    exact ⟨u, by simp [mustG, hv, hu]⟩

mutual
theorem atom_total (q : List Int) : ∀ (a : Atom) (n : Nat), a.empties = true → a.hatless = true → ∀ w : Way, ∃ v, a.go q n w.1 w.2 = some v
  | .group true as, n, h, hh, w => by
    obtain ⟨v, hv⟩ := alts_total q as (n + 1) h hh w
    exact ⟨_, by simp only [Atom.go, if_true, hv, Option.map_some]; rfl⟩
  | .group false as, n, h, hh, w => by
    obtain ⟨v, hv⟩ := alts_total q as n h hh w
    exact ⟨v, by simp only [Atom.go, Bool.false_eq_true, if_false, hv]⟩
theorem sq_total (q : List Int) : ∀ (s : Sq) (n : Nat), s.empties = true → s.hatless = true → ∀ w : Way, ∃ v, s.go q n w.1 w.2 = some v
  | .nil d, n, h, hh, w => by
    have : d = false := by simpa [Sq.empties] using h
    subst this
    exact ⟨w, by simp [Sq.go, Sq.picks]⟩
  | .cons a k s, n, h, hh, w => by
    simp only [Sq.empties, Bool.and_eq_true, Bool.or_eq_true, beq_iff_eq] at h
    simp only [Sq.hatless, Bool.and_eq_true] at hh
    have hm : ∃ v, mustG (a.go q n) k.lo w = some v := by
      rcases h.1 with h0 | h0
      · rw [h0]; exact ⟨w, rfl⟩
      · exact must_total (fun w => atom_total q a n h0 hh.1 w) _ w
    obtain ⟨v, hv⟩ := hm
    obtain ⟨u, hu⟩ := sq_total q s (n + a.count) h.2 hh.2 (growG (a.go q n) (k.extra q.length) v)
    exact ⟨u, by simp only [Sq.go, Quant.go, hv, Option.map_some, Option.bind_some, hu]⟩
theorem alts_total (q : List Int) : ∀ (as : Alts) (n : Nat), as.empties = true → as.hatless = true → ∀ w : Way, ∃ v, as.go q n w.1 w.2 = some v
  | .last hat s, n, h, hh, w => by
    simp only [Alts.hatless, Bool.and_eq_true, Bool.not_eq_true'] at hh
    obtain ⟨rfl, hh⟩ := hh
    obtain ⟨v, hv⟩ := sq_total q s n h hh w
    exact ⟨v, by simp [Alts.go, hv]⟩
  | .more hat s as, n, h, hh, w => by
    simp only [Alts.hatless, Bool.and_eq_true, Bool.not_eq_true'] at hh
    obtain ⟨⟨rfl, h1⟩, h2⟩ := hh
    simp only [Alts.empties, Bool.or_eq_true] at h
    cases e : s.go q n w.1 w.2 with
    | some v => exact ⟨v, by simp [Alts.go, e]⟩
    | none =>
      rcases h with h | h
      · obtain ⟨v, hv⟩ := sq_total q s n h h1 w
        rw [e] at hv; cases hv
      · obtain ⟨v, hv⟩ := alts_total q as (n + s.count) h h2 w
        exact ⟨v, by simp [Alts.go, e, hv]⟩
end

/-! ## the characters of a match -/

/-- All characters between the begin and the end are in `S`. -/
def Over (q : List Int) (S : Int → Bool) (w v : Way) : Prop := ∃ d, v.1 = w.1 + d ∧ InClass q S w.1 d

theorem over_refl (q : List Int) (S : Int → Bool) (w : Way) : Over q S w w := ⟨0, rfl, inClass_zero _ _ _⟩
theorem over_trans (q : List Int) (S : Int → Bool) (u v w : Way) (h1 : Over q S u v) (h2 : Over q S v w) : Over q S u w := by
  obtain ⟨d, e1, h1⟩ := h1
  obtain ⟨d', e2, h2⟩ := h2
  refine ⟨d + d', by omega, inClass_add.2 ⟨h1, by rwa [e1] at h2⟩⟩

theorem one_over {q : List Int} (hq : ∀ c ∈ q, c ∈ allChars) {T S : Int → Bool} (hw : allChars.all (fun x => !T x || S x) = true) {w v : Way}
    (e : oneG q T w.1 w.2 = some v) : Over q S w v := by
  obtain ⟨x, hx, ht, rfl, h⟩ := one_some e
  refine ⟨1, rfl, inClass_one hx ?_⟩
  have := List.all_eq_true.1 hw x (hq x (List.mem_of_getElem? hx))
  simpa [ht] using this

mutual
theorem atom_over {q : List Int} (hq : ∀ c ∈ q, c ∈ allChars) {S : Int → Bool} : ∀ (a : Atom) (n : Nat), a.within S = true → ∀ (w v : Way), a.go q n w.1 w.2 = some v → Over q S w v
  | .group true as, n, hw, w, v, e => by
    simp only [Atom.go, if_true, Option.map_eq_some_iff] at e
    obtain ⟨u, h1, rfl⟩ := e
    exact alts_over hq as (n + 1) hw w u h1
  | .group false as, n, hw, w, v, e => by
    simp only [Atom.go, Bool.false_eq_true, if_false] at e
    exact alts_over hq as n hw w v e
  | .chr x, n, hw, w, v, e => one_over hq hw e
  | .esc x, n, hw, w, v, e => one_over hq hw e
  | .dot, n, hw, w, v, e => one_over hq hw e
  | .hex x y, n, hw, w, v, e => one_over hq hw e
  | .oct x y z, n, hw, w, v, e => one_over hq hw e
  | .cls neg items dash, n, hw, w, v, e => one_over hq hw e
theorem sq_over {q : List Int} (hq : ∀ c ∈ q, c ∈ allChars) {S : Int → Bool} : ∀ (s : Sq) (n : Nat), s.within S = true → ∀ (w v : Way), s.go q n w.1 w.2 = some v → Over q S w v
  | .nil d, n, hw, w, v, e => by
    obtain ⟨_, h1 | ⟨h0, h1, h2⟩⟩ := nil_some e
    · exact ⟨0, by omega, inClass_zero _ _ _⟩
    · refine ⟨1, h1, inClass_one h2 ?_⟩
      simpa [Sq.within, h0] using hw
  | .cons a k s, n, hw, w, v, e => by
    simp only [Sq.go, Option.bind_eq_some_iff] at e
    obtain ⟨u, h1, h2⟩ := e
    simp only [Sq.within, Bool.and_eq_true] at hw
    exact over_trans q S _ _ _ (quant_rel (over_refl q S) (over_trans q S) (fun w v e => atom_over hq a n hw.1 w v e) h1) (sq_over hq s _ hw.2 u v h2)
theorem alts_over {q : List Int} (hq : ∀ c ∈ q, c ∈ allChars) {S : Int → Bool} : ∀ (as : Alts) (n : Nat), as.within S = true → ∀ (w v : Way), as.go q n w.1 w.2 = some v → Over q S w v
  | .last hat s, n, hw, w, v, e => by
    simp only [Alts.go] at e
    exact sq_over hq s n hw w v (ite_none e).2
  | .more hat s as, n, hw, w, v, e => by
    simp only [Alts.within, Bool.and_eq_true] at hw
    rcases more_some e with e | e
    · exact sq_over hq s n hw.1 w v e
    · exact alts_over hq as _ hw.2 w v e
end

/-! ## captures -/

/-- What is captured stays captured. -/
def StaysSet (w v : Way) : Prop := ∀ k, w.2 k ≠ none → v.2 k ≠ none

theorem kept_refl (w : Way) : StaysSet w w := fun _ h => h
theorem kept_trans (u v w : Way) (h1 : StaysSet u v) (h2 : StaysSet v w) : StaysSet u w := fun k h => h2 k (h1 k h)

theorem kept_with (w v : Way) (n a b : Nat) (h : StaysSet w v) : StaysSet w (v.1, v.2.with n a b) := by
  intro k hk
  simp only [Caps.with]
  split
  · simp
  · exact h k hk

mutual
theorem atom_kept (q : List Int) : ∀ (a : Atom) (n : Nat) (w v : Way), a.go q n w.1 w.2 = some v → StaysSet w v
  | .group true as, n, w, v, e => by
    simp only [Atom.go, if_true, Option.map_eq_some_iff] at e
    obtain ⟨u, h1, rfl⟩ := e
    exact kept_with w u _ _ _ (alts_kept q as (n + 1) w u h1)
  | .group false as, n, w, v, e => by
    simp only [Atom.go, Bool.false_eq_true, if_false] at e
    exact alts_kept q as n w v e
  | .chr x, n, w, v, e | .esc x, n, w, v, e | .dot, n, w, v, e | .hex x y, n, w, v, e | .oct x y z, n, w, v, e
  | .cls neg items dash, n, w, v, e => by
    obtain ⟨x, _, _, rfl, h⟩ := one_some e
    exact fun k h => h
theorem sq_kept (q : List Int) : ∀ (s : Sq) (n : Nat) (w v : Way), s.go q n w.1 w.2 = some v → StaysSet w v
  | .nil d, n, w, v, e => by
    have := (nil_some e).1
    intro k h; rwa [this]
  | .cons a k s, n, w, v, e => by
    simp only [Sq.go, Option.bind_eq_some_iff] at e
    obtain ⟨u, h1, h2⟩ := e
    exact kept_trans _ _ _ (quant_rel kept_refl kept_trans (fun w v e => atom_kept q a n w v e) h1) (sq_kept q s _ u v h2)
theorem alts_kept (q : List Int) : ∀ (as : Alts) (n : Nat) (w v : Way), as.go q n w.1 w.2 = some v → StaysSet w v
  | .last hat s, n, w, v, e => by
    simp only [Alts.go] at e
    exact sq_kept q s n w v (ite_none e).2
  | .more hat s as, n, w, v, e => by
    rcases more_some e with e | e
    · exact sq_kept q s n w v e
    · exact alts_kept q as _ w v e
end

mutual
theorem atom_forced (q : List Int) : ∀ (a : Atom) (n : Nat), a.forced = true → ∀ (w v : Way), a.go q n w.1 w.2 = some v → ∀ k, n ≤ k → k < n + a.count → v.2 k ≠ none
  | .group true as, n, hf, w, v, e, k, h1, h2 => by
    simp only [Atom.go, if_true, Option.map_eq_some_iff] at e
    obtain ⟨u, e1, rfl⟩ := e
    simp only [Caps.with]
    split
    · simp
    · simp only [Atom.count, if_true] at h2
      exact alts_forced q as (n + 1) hf w u e1 k (by omega) (by omega)
  | .group false as, n, hf, w, v, e, k, h1, h2 => by
    simp only [Atom.go, Bool.false_eq_true, if_false] at e
    simp only [Atom.count, Bool.false_eq_true, if_false, Nat.zero_add] at h2
    exact alts_forced q as n hf w v e k h1 h2
  | .chr x, n, _, w, v, e, k, h1, h2 | .esc x, n, _, w, v, e, k, h1, h2 | .dot, n, _, w, v, e, k, h1, h2 | .hex x y, n, _, w, v, e, k, h1, h2
  | .oct x y z, n, _, w, v, e, k, h1, h2 | .cls neg items dash, n, _, w, v, e, k, h1, h2 => by
    simp only [Atom.count] at h2; omega
theorem sq_forced (q : List Int) : ∀ (s : Sq) (n : Nat), s.forced = true → ∀ (w v : Way), s.go q n w.1 w.2 = some v → ∀ k, n ≤ k → k < n + s.count → v.2 k ≠ none
  | .nil d, n, _, w, v, e, k, h1, h2 => by simp only [Sq.count] at h2; omega
  | .cons a kq s, n, hf, w, v, e, k, h1, h2 => by
    simp only [Sq.go, Option.bind_eq_some_iff] at e
    obtain ⟨u, e1, e2⟩ := e
    simp only [Sq.forced, Bool.and_eq_true, Bool.or_eq_true, bne_iff_ne, beq_iff_eq] at hf
    simp only [Sq.count] at h2
    by_cases hk : k < n + a.count
    · refine sq_kept q s _ u v e2 k ?_
      rcases hf.1.1 with hl | hl
      · simp only [Quant.go, Option.map_eq_some_iff] at e1
        obtain ⟨x, e1, rfl⟩ := e1
        refine grow_rel kept_refl kept_trans (fun w v e => atom_kept q a n w v e) _ x k ?_
        obtain ⟨m, hm⟩ : ∃ m, kq.lo = m + 1 := ⟨kq.lo - 1, by omega⟩
        rw [hm] at e1
        simp only [mustG, Option.bind_eq_some_iff] at e1
        obtain ⟨y, e3, e4⟩ := e1
        exact must_rel kept_refl kept_trans (fun w v e => atom_kept q a n w v e) _ _ _ e4 k (atom_forced q a n hf.1.2 w y e3 k h1 hk)
      · omega
    · exact sq_forced q s _ hf.2 u v e2 k (by omega) (by omega)
theorem alts_forced (q : List Int) : ∀ (as : Alts) (n : Nat), as.forced = true → ∀ (w v : Way), as.go q n w.1 w.2 = some v → ∀ k, n ≤ k → k < n + as.count → v.2 k ≠ none
  | .last hat s, n, hf, w, v, e, k, h1, h2 => by
    simp only [Alts.go] at e
    exact sq_forced q s n hf w v (ite_none e).2 k h1 h2
  | .more hat s as, n, hf, w, v, e, k, h1, h2 => by
    simp only [Alts.forced, Bool.and_eq_true, beq_iff_eq] at hf
    simp only [Alts.count] at h2
    omega
end

/-! ## the captures so far and the numbers of the groups do not matter -/

/-- Two matchers that agree on the ends. -/
def SameEnds (g g' : Nat → Caps → Option Way) : Prop := ∀ i c c', (g i c).map Prod.fst = (g' i c').map Prod.fst

theorem SameEnds.none {g g' : Nat → Caps → Option Way} (h : SameEnds g g') {i : Nat} {c : Caps} (c' : Caps) (e : g i c = none) : g' i c' = none := by
  have := h i c c'; rw [e] at this; simpa using this.symm

theorem SameEnds.some {g g' : Nat → Caps → Option Way} (h : SameEnds g g') {i : Nat} {c : Caps} (c' : Caps) {w : Way} (e : g i c = some w) :
    ∃ w', g' i c' = some w' ∧ w'.1 = w.1 := by
  have := h i c c'; rw [e] at this
  simp only [Option.map_some] at this
  obtain ⟨w', h1, h2⟩ := Option.map_eq_some_iff.1 this.symm
  exact ⟨w', h1, h2⟩

theorem must_same {g g' : Nat → Caps → Option Way} (h : SameEnds g g') : ∀ (n : Nat) (w w' : Way), w.1 = w'.1 → (mustG g n w).map Prod.fst = (mustG g' n w').map Prod.fst
  | 0, w, w', e => by simp [mustG, e]
  | n + 1, w, w', e => by
    simp only [mustG]
    cases h1 : g w.1 w.2 with
    | none => rw [show g' w'.1 w'.2 = none by rw [← e]; exact h.none _ h1]; rfl
    | some v =>
      obtain ⟨v', h2, h3⟩ := h.some w'.2 h1
      rw [show g' w'.1 w'.2 = some v' by rw [← e]; exact h2]
      exact must_same h n v v' h3.symm

theorem grow_same {g g' : Nat → Caps → Option Way} (h : SameEnds g g') : ∀ (n : Nat) (w w' : Way), w.1 = w'.1 → (growG g n w).1 = (growG g' n w').1
  | 0, w, w', e => e
  | n + 1, w, w', e => by
    simp only [growG]
    cases h1 : g w.1 w.2 with
    | none => rw [show g' w'.1 w'.2 = none by rw [← e]; exact h.none _ h1]; exact e
    | some v =>
      obtain ⟨v', h2, h3⟩ := h.some w'.2 h1
      rw [show g' w'.1 w'.2 = some v' by rw [← e]; exact h2]
      exact grow_same h n v v' h3.symm

theorem quant_same {g g' : Nat → Caps → Option Way} (h : SameEnds g g') (k : Quant) (len : Nat) (w w' : Way) (e : w.1 = w'.1) :
    (k.go len g w).map Prod.fst = (k.go len g' w').map Prod.fst := by
  have h1 := must_same h k.lo w w' e
  simp only [Quant.go]
  cases h2 : mustG g k.lo w with
  | none => rw [h2] at h1; rw [show mustG g' k.lo w' = none by simpa using h1.symm]; rfl
  | some v =>
    rw [h2] at h1
    obtain ⟨v', h3, h4⟩ := Option.map_eq_some_iff.1 h1.symm
    rw [h3]
    simp only [Option.map_some]
    exact congrArg some (grow_same h _ v v' h4.symm)

theorem one_same (q : List Int) (S : Int → Bool) : SameEnds (oneG q S) (oneG q S) := by
  intro i c c'
  unfold oneG
  cases q[i]? with
  | none => rfl
  | some x => by_cases h : S x = true <;> simp [h]

mutual
theorem atom_same (q : List Int) : ∀ (a : Atom) (n n' : Nat), SameEnds (a.go q n) (a.go q n')
  | .group true as, n, n' => fun i c c' => by
    have := alts_same q as (n + 1) (n' + 1) i c c'
    simp only [Atom.go, if_true, Option.map_map]
    exact this
  | .group false as, n, n' => fun i c c' => by
    simp only [Atom.go, Bool.false_eq_true, if_false]
    exact alts_same q as n n' i c c'
  | .chr x, n, n' => one_same q _
  | .esc x, n, n' => one_same q _
  | .dot, n, n' => one_same q _
  | .hex x y, n, n' => one_same q _
  | .oct x y z, n, n' => one_same q _
  | .cls neg items dash, n, n' => one_same q _
theorem sq_same (q : List Int) : ∀ (s : Sq) (n n' : Nat), SameEnds (s.go q n) (s.go q n')
  | .nil d, n, n' => fun i c c' => by simp only [Sq.go, Option.map_map]; rfl
  | .cons a k s, n, n' => fun i c c' => by
    have h1 := quant_same (atom_same q a n n') k q.length (i, c) (i, c') rfl
    simp only [Sq.go]
    cases h2 : k.go q.length (a.go q n) (i, c) with
    | none => rw [h2] at h1; rw [show k.go q.length (a.go q n') (i, c') = none by simpa using h1.symm]; rfl
    | some v =>
      rw [h2] at h1
      obtain ⟨v', h3, h4⟩ := Option.map_eq_some_iff.1 h1.symm
      rw [h3]
      simp only [Option.bind_some]
      rw [h4]
      exact sq_same q s _ _ v.1 v.2 v'.2
theorem alts_same (q : List Int) : ∀ (as : Alts) (n n' : Nat), SameEnds (as.go q n) (as.go q n')
  | .last hat s, n, n' => fun i c c' => by
    simp only [Alts.go]
    cases hat && i != 0
    · exact sq_same q s n n' i c c'
    · rfl
  | .more hat s as, n, n' => fun i c c' => by
    have h1 := sq_same q s n n' i c c'
    have h2 := alts_same q as (n + s.count) (n' + s.count) i c c'
    simp only [Alts.go]
    cases hat && i != 0
    · simp only [Bool.false_eq_true, if_false]
      cases h3 : s.go q n i c with
      | none => rw [h3] at h1; rw [show s.go q n' i c' = none by simpa using h1.symm]; exact h2
      | some v =>
        rw [h3] at h1
        obtain ⟨v', h4, h5⟩ := Option.map_eq_some_iff.1 h1.symm
        rw [h4]
        simp only [Option.map_some, h5]
    · exact h2
end

/-! ## a match can begin earlier in a run of the characters it begins with -/

theorem must_last (g : Nat → Caps → Option Way) : ∀ (n : Nat) (w : Way), mustG g (n + 1) w = (mustG g n w).bind (fun v => g v.1 v.2)
  | 0, w => by simp [mustG]
  | n + 1, w => by
    rw [mustG]
    cases e : g w.1 w.2 with
    | none => simp [mustG, e]
    | some v => simp only [Option.bind_some]; rw [must_last g n v]; simp [mustG, e]

theorem grow_more {q : List Int} {g : Nat → Caps → Option Way} (hg : ∀ w v : Way, g w.1 w.2 = some v → w.1 ≤ q.length → w.1 < v.1 ∧ v.1 ≤ q.length) : ∀ (n : Nat) (w : Way),
    w.1 ≤ q.length → q.length - w.1 ≤ n → growG g n w = growG g (n + 1) w
  | 0, w, hw, h => by
    have : g w.1 w.2 = none := by
      cases e : g w.1 w.2 with
      | none => rfl
      | some v => have := hg w v e hw; omega
    simp [growG, this]
  | n + 1, w, hw, h => by
    rw [growG, growG]
    cases e : g w.1 w.2 with
    | none => rfl
    | some v =>
      have := hg w v e hw
      exact grow_more hg n v this.2 (by omega)

theorem quant_back {q : List Int} {g : Nat → Caps → Option Way} (hg : ∀ w v : Way, g w.1 w.2 = some v → w.1 ≤ q.length → w.1 < v.1 ∧ v.1 ≤ q.length) {k : Quant}
    (hk : k.hi = none) {u v w : Way} (hu : u.1 ≤ q.length) (h1 : g u.1 u.2 = some v) (h2 : k.go q.length g v = some w) : k.go q.length g u = some w := by
  simp only [Quant.go, Option.map_eq_some_iff] at h2 ⊢
  obtain ⟨x, e1, rfl⟩ := h2
  have e2 : mustG g (k.lo + 1) u = some x := by simp only [mustG, h1, Option.bind_some]; exact e1
  rw [must_last] at e2
  obtain ⟨y, e3, e4⟩ := Option.bind_eq_some_iff.1 e2
  refine ⟨y, e3, ?_⟩
  have hx : k.extra q.length = q.length := by simp [Quant.extra, hk]
  have hy := must_rel (P := Fwd q) (fwd_refl q) (fwd_trans q) (fun a b h hl => ⟨Nat.le_of_lt (hg a b h hl).1, (hg a b h hl).2⟩) _ _ _ e3 hu
  rw [hx, grow_more hg q.length y hy.2 (by omega)]
  simp only [growG, e4]

theorem quant_run {q : List Int} {S : Int → Bool} {k : Quant} (hk : k.hi = none) {c : Caps} {w : Way} : ∀ (d i : Nat), InClass q S i d →
    k.go q.length (oneG q S) (i + d, c) = some w → k.go q.length (oneG q S) (i, c) = some w
  | 0, i, _, e => e
  | d + 1, i, h, e => by
    obtain ⟨h1, h2⟩ := inClass_add.1 (show InClass q S i (1 + d) by rwa [Nat.add_comm] at h)
    have e1 := quant_run hk d (i + 1) h2 (by rw [← e]; congr 2; omega)
    obtain ⟨x, hx, hs⟩ := h1 0 (by omega)
    simp only [Nat.add_zero] at hx
    have hlt := (List.getElem?_eq_some_iff.1 hx).1
    refine quant_back (u := (i, c)) (v := (i + 1, c)) (fun w v e hw => ?_) hk (by simp only; omega) (by simp [oneG, hx, hs]) e1
    obtain ⟨_, _, _, rfl, hl⟩ := one_some e
    exact ⟨Nat.lt_succ_self _, hl⟩

mutual
theorem sq_back (q : List Int) (S : Int → Bool) : ∀ (s : Sq) (n i d : Nat) (c : Caps) (w : Way), s.lead = some S → InClass q S i d → s.go q n (i + d) c = some w →
    ∃ w', s.go q n i c = some w' ∧ w'.1 = w.1
  | .nil _, n, i, d, c, w, h, _, _ => by simp [Sq.lead] at h
  | .cons (.group cap as) k s, n, i, d, c, w, h, hc, e => by
    simp only [Sq.lead] at h
    split at h
    · rename_i hk
      have hk : k = .once := by cases k <;> first | rfl | cases hk
      subst hk
      simp only [Sq.go, Option.bind_eq_some_iff] at e ⊢
      obtain ⟨u, e1, e2⟩ := e
      have one : ∀ (g : Nat → Caps → Option Way) (i : Nat) (c : Caps), Quant.once.go q.length g (i, c) = g i c := by
        intro g i c
        simp only [Quant.go, Quant.lo, mustG, Quant.extra, Quant.hi, Nat.sub_self]
        cases g i c <;> rfl
      rw [one] at e1
      rw [one]
      have key : ∃ u', (Atom.group cap as).go q n i c = some u' ∧ u'.1 = u.1 := by
        cases cap with
        | true =>
          simp only [Atom.go, if_true, Option.map_eq_some_iff] at e1 ⊢
          obtain ⟨v, e3, rfl⟩ := e1
          obtain ⟨v', e4, e5⟩ := alts_back q S as (n + 1) i d c v h hc e3
          exact ⟨_, ⟨v', e4, rfl⟩, e5⟩
        | false =>
          simp only [Atom.go, Bool.false_eq_true, if_false] at e1 ⊢
          exact alts_back q S as n i d c u h hc e1
      obtain ⟨u', e3, e4⟩ := key
      have := (sq_same q s (n + (Atom.group cap as).count) (n + (Atom.group cap as).count)).some u'.2 e2
      obtain ⟨w', e5, e6⟩ := this
      exact ⟨w', ⟨u', e3, by rw [e4]; exact e5⟩, e6⟩
    · cases h
  | .cons (.chr x) k s, n, i, d, c, w, h, hc, e | .cons (.esc x) k s, n, i, d, c, w, h, hc, e | .cons .dot k s, n, i, d, c, w, h, hc, e
  | .cons (.hex x y) k s, n, i, d, c, w, h, hc, e | .cons (.oct x y z) k s, n, i, d, c, w, h, hc, e | .cons (.cls neg x y) k s, n, i, d, c, w, h, hc, e => by
    simp only [Sq.lead] at h
    split at h
    · rename_i hk
      have hk : k.hi = none := by simpa using hk
      cases h
      simp only [Sq.go, Option.bind_eq_some_iff] at e ⊢
      obtain ⟨u, e1, e2⟩ := e
      exact ⟨w, ⟨u, quant_run hk d i hc e1, e2⟩, rfl⟩
    · cases h
theorem alts_back (q : List Int) (S : Int → Bool) : ∀ (as : Alts) (n i d : Nat) (c : Caps) (w : Way), as.lead = some S → InClass q S i d → as.go q n (i + d) c = some w →
    ∃ w', as.go q n i c = some w' ∧ w'.1 = w.1
  | .last hat s, n, i, d, c, w, h, hc, e => by
    simp only [Alts.lead] at h
    cases hat with
    | true => simp at h
    | false =>
      simp only [Bool.false_eq_true, if_false] at h
      simp only [Alts.go, Bool.false_and, Bool.false_eq_true, if_false] at e ⊢
      exact sq_back q S s n i d c w h hc e
  | .more .., n, i, d, c, w, h, hc, e => by simp [Alts.lead] at h
end

end ERegex

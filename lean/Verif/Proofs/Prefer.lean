import Verif.Proofs.Class
import Verif.Props.Repeat
import Verif.Proofs.Size
import Verif.Proofs.AdmittedSet
import Verif.Proofs.Admission
/-!
# The preferred match: proofs
-/
set_option autoImplicit false
namespace ERegex
open ERegex.Spec ERegex.Props

/-! ## lists -/

theorem head_flatMap {r : Nat → Nat → Prop} (hr : ∀ a b, r a b → ¬ r b a) {α : Type} {f : Nat → List α} {n : Nat} : ∀ (l : List Nat),
    l.Pairwise r → n ∈ l → f n ≠ [] → (∀ m ∈ l, f m ≠ [] → ¬ r m n) → (l.flatMap f).head? = (f n).head?
  | [], _, h, _, _ => by simp at h
  | x :: l, hp, h, hn, hm => by
    rw [List.pairwise_cons] at hp
    rw [List.flatMap_cons]
    rcases List.mem_cons.1 h with rfl | h
    · cases hf : f n with
      | nil => exact absurd hf hn
      | cons a l => simp
    · have : f x = [] := by
        cases hx : f x with
        | nil => rfl
        | cons a l' => exact absurd (hp.1 n h) (hm x (by simp) (by simp [hx]))
      rw [this]
      exact head_flatMap hr l hp.2 h hn (fun m hml => hm m (by simp [hml]))

theorem flatMap_nil {α : Type} {f : Nat → List α} {l : List Nat} (h : ∀ m ∈ l, f m = []) : l.flatMap f = [] := by
  simpa [List.flatMap_eq_nil_iff] using h

theorem inClass_runLen (q : List Int) (S : Int → Bool) (i n : Nat) : InClass q S i n ↔ n ≤ runLen S (q.drop i) := by
  have key : ∀ (l : List Int) (n : Nat), (∀ k, k < n → ∃ c, l[k]? = some c ∧ S c = true) ↔ n ≤ runLen S l := by
    intro l
    induction l with
    | nil =>
      intro n
      simp only [runLen, List.takeWhile_nil, List.length_nil, Nat.le_zero]
      constructor
      · intro h
        cases n with
        | zero => rfl
        | succ n => obtain ⟨c, hc, _⟩ := h 0 (by omega); simp at hc
      · rintro rfl k hk; omega
    | cons c l ih =>
      intro n
      simp only [runLen, List.takeWhile_cons] at ih ⊢
      cases n with
      | zero => simp
      | succ n =>
        cases hc : S c with
        | false =>
          simp only [Bool.false_eq_true, if_false, List.length_nil]
          constructor
          · intro h; obtain ⟨d, hd, hs⟩ := h 0 (by omega); simp at hd; subst hd; rw [hc] at hs; simp at hs
          · intro h; omega
        | true =>
          simp only [if_true, List.length_cons, Nat.add_le_add_iff_right, ← ih]
          constructor
          · intro h k hk
            have := h (k + 1) (by omega)
            simpa using this
          · intro h k hk
            cases k with
            | zero => exact ⟨c, by simp, hc⟩
            | succ k => simpa using h k (by omega)
  have := key (q.drop i) n
  simp only [List.getElem?_drop] at this
  exact this

theorem runLen_le (q : List Int) (S : Int → Bool) (i : Nat) (hi : i ≤ q.length) : i + runLen S (q.drop i) ≤ q.length :=
  inClass_len ((inClass_runLen q S i _).2 (Nat.le_refl _)) hi

/-- Numbers the bounds allow. -/
def Allowed (k : Quant) (n : Nat) : Prop := k.lo ≤ n ∧ ∀ h, k.hi = some h → n ≤ h

theorem le_top (k : Quant) (n a : Nat) : n ≤ k.top a ↔ (∀ h, k.hi = some h → n ≤ h) ∧ n ≤ a := by
  unfold Quant.top
  cases k.hi with
  | none => simp
  | some h => simp; omega

theorem mem_greedy (k : Quant) (a n : Nat) (hm : k.mode ≠ .possessive) : n ∈ k.counts a ↔ Allowed k n ∧ n ≤ a := by
  have h := le_top k n a
  unfold Allowed
  unfold Quant.counts
  cases hk : k.mode with
  | greedy => simp only [List.mem_reverse, List.mem_range'_1]; rw [and_assoc, ← h]; omega
  | lazy => simp only [List.mem_range'_1]; rw [and_assoc, ← h]; omega
  | possessive => exact absurd hk hm

theorem counts_sub (k : Quant) (a n : Nat) (h : n ∈ k.counts a) : Allowed k n ∧ n ≤ a := by
  cases hk : k.mode with
  | greedy => exact (mem_greedy k a n (by rw [hk]; simp)).1 h
  | lazy => exact (mem_greedy k a n (by rw [hk]; simp)).1 h
  | possessive =>
    unfold Quant.counts at h
    rw [hk] at h
    simp only at h
    split at h
    · simp only [List.mem_singleton] at h
      have := (le_top k n a).1 (by omega)
      unfold Allowed
      exact ⟨⟨by omega, this.1⟩, this.2⟩
    · simp at h

/-- Greedy: the first success is the largest admissible number. -/
theorem head_greedy {k : Quant} (hm : k.mode = .greedy) {a : Nat} {α : Type} {f : Nat → List α} {n : Nat} (h1 : Allowed k n) (h2 : n ≤ a) (hn : f n ≠ [])
    (hmax : ∀ m, Allowed k m → m ≤ a → f m ≠ [] → m ≤ n) : ((k.counts a).flatMap f).head? = (f n).head? := by
  refine head_flatMap (r := fun a b => b < a) (fun a b h1 h2 => by omega) _ ?_ ((mem_greedy k a n (by rw [hm]; simp)).2 ⟨h1, h2⟩) hn ?_
  · unfold Quant.counts; rw [hm]
    simp only [List.pairwise_reverse]
    exact List.pairwise_lt_range' ..
  · intro m hml hfm
    obtain ⟨h3, h4⟩ := counts_sub k a m hml
    have := hmax m h3 h4 hfm
    omega

theorem head_lazy {k : Quant} (hm : k.mode = .lazy) {a : Nat} {α : Type} {f : Nat → List α} {n : Nat} (h1 : Allowed k n) (h2 : n ≤ a) (hn : f n ≠ [])
    (hmin : ∀ m, Allowed k m → m ≤ a → f m ≠ [] → n ≤ m) : ((k.counts a).flatMap f).head? = (f n).head? := by
  refine head_flatMap (r := fun a b => a < b) (fun a b h1 h2 => by omega) _ ?_ ((mem_greedy k a n (by rw [hm]; simp)).2 ⟨h1, h2⟩) hn ?_
  · unfold Quant.counts; rw [hm]
    exact List.pairwise_lt_range' ..
  · intro m hml hfm
    obtain ⟨h3, h4⟩ := counts_sub k a m hml
    have := hmin m h3 h4 hfm
    omega

theorem counts_nil {k : Quant} {a : Nat} {α : Type} {f : Nat → List α} (h : ∀ m, Allowed k m → m ≤ a → f m = []) : (k.counts a).flatMap f = [] :=
  flatMap_nil (fun m hm => h m (counts_sub k a m hm).1 (counts_sub k a m hm).2)

/-- The largest admissible number works whenever any does: all modes agree with the possessive one. -/
theorem head_top {k : Quant} {a : Nat} {α : Type} {f : Nat → List α} (hl : k.lo ≤ k.top a)
    (hg : k.mode = .greedy → ∀ m, Allowed k m → m ≤ a → f m ≠ [] → f (k.top a) ≠ [])
    (hz : k.mode = .lazy → ∀ m, Allowed k m → m ≤ a → f m ≠ [] → m = k.top a) :
    ((k.counts a).flatMap f).head? = (f (k.top a)).head? := by
  have ht := (le_top k (k.top a) a).1 (Nat.le_refl _)
  have hal : Allowed k (k.top a) := ⟨hl, ht.1⟩
  cases hm : k.mode with
  | possessive => unfold Quant.counts; rw [hm]; simp [hl]
  | greedy =>
    by_cases hf : f (k.top a) = []
    · rw [hf, counts_nil (fun m h1 h2 => ?_)]
      cases hfm : f m with
      | nil => rfl
      | cons x l => exact absurd hf (hg hm m h1 h2 (by simp [hfm]))
    · exact head_greedy hm hal ht.2 hf (fun m h1 h2 _ => (le_top k m a).2 ⟨h1.2, h2⟩)
  | lazy =>
    by_cases hf : f (k.top a) = []
    · rw [hf, counts_nil (fun m h1 h2 => ?_)]
      cases hfm : f m with
      | nil => rfl
      | cons x l => rw [hz hm m h1 h2 (by simp [hfm])] at hfm; rw [hfm] at hf; simp at hf
    · exact head_lazy hm hal ht.2 hf (fun m h1 h2 hfm => by rw [hz hm m h1 h2 hfm]; exact Nat.le_refl _)

/-! ## admission sets -/

theorem extractAdm_one (s : List Int) : extractAdm [s] = s := by
  simp only [extractAdm, mergeSets]
  cases s <;> simp [mergeAux]

mutual
/-- The heuristics keep the admission set. -/
theorem admSet_opt : ∀ (t : Node) (inj : List (List Int)), admSet (opt t inj) = admSet t
  | .exact s _, _ => by simp [opt, admSet]
  | .range .., _ => by simp [opt, admSet]
  | .space, _ => by simp [opt]
  | .word, _ => by simp [opt]
  | .any, _ => by simp [opt]
  | .bos, _ => by simp [opt]
  | .eol, _ => by simp [opt]
  | .negated m, _ => by simp only [opt, admSet, admSet_opt m []]
  | .simple m [], inj => by
    simp only [opt, admSet, admSets, extractAdm_one, ite_self]
    exact admSet_opt m inj
  | .simple m (c :: cs), inj => by
    simp only [opt, admSet, admSets, minSize_opt, admSet_opt m inj, admSet_opt c [], admSets_opts cs]
  | .alt [], _ => by simp [opt]
  | .alt [c], inj => by simp only [opt, admSet, extractAdm_one]; exact admSet_opt c inj
  | .alt (c :: d :: cs), inj => by
    simp only [opt, admSet, admSets, minSize_opt, admSet_opt c [], admSet_opt d [], admSets_opts cs]
  | .greedy m lo hi cs, inj => by
    simp only [opt]; split <;> simp only [admSet, admSet_opt m [], admSets_opts cs]
  | .lazy m lo hi cs, inj => by
    simp only [opt]; split <;> simp only [admSet, admSet_opt m [], admSets_opts cs]
  | .possessive m lo hi cs, inj => by simp only [opt, admSet, admSet_opt m [], admSets_opts cs]
  | .repeated m n cs, inj => by simp only [opt, admSet, admSet_opt m []]
  | .group m idx cs, inj => by simp only [opt, admSet, admSet_opt m _]
theorem admSets_opts : ∀ (cs : List Node), admSets (opts cs) = admSets cs
  | [] => by simp [opts]
  | c :: cs => by simp only [opts, admSets, admSet_opt c [], admSets_opts cs]
end

/-- A tree for a one-character atom. -/
structure Atomic (a : Atom) (m : Node) : Prop where
  one : oneCh m = true
  steady : a.steady = true → single m = true
  cls : ClassOf m a.set
  adm : ∀ x, x ∈ admSet m ↔ a.shown x = true
  sorted : Sorted (admSet m)
  size : minSize m = 1
  noslot : slots m = []
  char : ∀ x, a.shown x = true → x ∈ allChars

theorem Atomic.test {a : Atom} {m : Node} (h : Atomic a m) : testOf m = a.set := classOf_unique (classOf_oneCh h.one) h.cls

theorem opt_oneCh {m : Node} (h : oneCh m = true) (inj : List (List Int)) : oneCh (opt m inj) = true := by
  simp only [oneCh, Bool.or_eq_true] at h ⊢
  rcases h with h | h
  · exact Or.inl (opt_single m inj h)
  · exact Or.inr (opt_skipping m inj h)

theorem Atomic.opt {a : Atom} {m : Node} (h : Atomic a m) : Atomic a (opt m []) where
  one := opt_oneCh h.one []
  steady hs := opt_single m [] (h.steady hs)
  cls := fun q i j => (opt_same m [] q i j).trans (h.cls q i j)
  adm := by rw [admSet_opt]; exact h.adm
  sorted := by rw [admSet_opt]; exact h.sorted
  size := by rw [minSize_opt]; exact h.size
  noslot := by rw [slots_opt]; exact h.noslot
  char := h.char

theorem Atomic.wrap {a : Atom} {m : Node} (h : Atomic a m) : Atomic a (.simple m []) where
  one := by
    have := h.one
    simp only [oneCh, single, skipping, Bool.or_eq_true, Bool.and_eq_true, List.isEmpty_nil, and_true] at this ⊢
    exact this
  steady hs := by simp [single, h.steady hs]
  cls := fun q i j => (same_seq_eps _ q i j).trans (h.cls q i j)
  adm := by simp only [admSet, admSets, extractAdm_one, ite_self]; exact h.adm
  sorted := by simp only [admSet, admSets, extractAdm_one, ite_self]; exact h.sorted
  size := by rw [minSize_simple_nil]; exact h.size
  noslot := by simp [slots, slotss, h.noslot]
  char := h.char

/-- The bound as the library stores it. -/
def _root_.ERegex.Spec.Quant.hiN (k : Quant) : Nat := k.hi.getD umax

/-- Trees for a sequence; `f`: the tree has been optimized. -/
inductive Fits : Bool → Sq → List Node → Prop
  | nil (f : Bool) : Fits f (.nil false) []
  | dollar (f : Bool) : Fits f (.nil true) [.simple .eol []]
  | dollar' (f : Bool) : Fits f (.nil true) [.eol]
  | once {f : Bool} {a : Atom} {m : Node} {s : Sq} {cs : List Node} : Atomic a m → Fits f s cs → Fits f (.cons a .once s) [.simple m cs]
  | last {f : Bool} {a : Atom} {m : Node} : Atomic a m → Fits f (.cons a .once (.nil false)) [m]
  | exact {f : Bool} {a : Atom} {m : Node} {s : Sq} {cs : List Node} {d : List Int} {md : QMode} : Atomic a m → Fits f s cs →
      Fits f (.cons a (.exact d md) s) [.repeated m (decimal d).toNat cs]
  | possessive {f : Bool} {a : Atom} {m : Node} {k : Quant} {s : Sq} {cs : List Node} : Atomic a m → Fits f s cs → k.fixed = false →
      keeps a k s = false → Fits f (.cons a k s) [.possessive m k.lo k.hiN cs]
  | greedy {f : Bool} {a : Atom} {m : Node} {k : Quant} {s : Sq} {cs : List Node} : Atomic a m → Fits f s cs → k.fixed = false →
      k.mode = .greedy → (f = true → keeps a k s = true) → Fits f (.cons a k s) [.greedy m k.lo k.hiN cs]
  | lazy {f : Bool} {a : Atom} {m : Node} {k : Quant} {s : Sq} {cs : List Node} : Atomic a m → Fits f s cs → k.fixed = false →
      k.mode = .lazy → (f = true → keeps a k s = true) → Fits f (.cons a k s) [.lazy m k.lo k.hiN cs]

theorem mem_allChars (x : Int) : x ∈ allChars ↔ -128 ≤ x ∧ x ≤ 127 := by
  simp only [allChars, List.mem_map, List.mem_range]
  constructor
  · rintro ⟨n, h, rfl⟩; omega
  · intro h; exact ⟨(x + 128).toNat, by omega, by omega⟩

theorem meets_iff (f g : Int → Bool) : meets f g = true ↔ ∃ x, x ∈ allChars ∧ f x = true ∧ g x = true := by
  simp [meets]

/-- What the tree of a sequence shows. -/
structure Shows (s : Sq) (l : List Int) : Prop where
  adm : ∀ x, x ∈ l ↔ s.shown x = true
  sorted : Sorted l
  char : ∀ x, s.shown x = true → x ∈ allChars

theorem shows_simple {a : Atom} {m : Node} {s : Sq} (h : Atomic a m) : Shows (.cons a .once s) (admSet m) :=
  ⟨fun x => by rw [h.adm]; simp [Sq.shown, Quant.lo], h.sorted, fun x hx => h.char x (by simpa [Sq.shown, Quant.lo] using hx)⟩

theorem shows_loop {a : Atom} {m : Node} {k : Quant} {s : Sq} {cs : List Node} (h : Atomic a m) (hs : Shows s (extractAdm (admSets cs))) :
    Shows (.cons a k s) (if k.lo = 0 then extractAdm (admSet m :: admSets cs) else admSet m) := by
  split
  · rename_i h0
    refine ⟨fun x => ?_, ?_, fun x hx => ?_⟩
    · simp only [extractAdm, mem_mergeSets, h.adm, hs.adm, Sq.shown, h0, beq_self_eq_true, Bool.true_and, Bool.or_eq_true]
    · simp only [extractAdm]; exact sorted_mergeSets h.sorted hs.sorted
    · simp only [Sq.shown, h0, beq_self_eq_true, Bool.true_and, Bool.or_eq_true] at hx
      rcases hx with hx | hx
      · exact h.char x hx
      · exact hs.char x hx
  · rename_i h0
    exact ⟨fun x => by rw [h.adm]; simp [Sq.shown, h0], h.sorted, fun x hx => h.char x (by simpa [Sq.shown, h0] using hx)⟩

theorem mem_eolSet (x : Int) : x ∈ complementSet [10] ↔ (ascii x && x != 10) = true := by
  rw [mem_complementSet (by simp [Sorted])]
  simp [ascii]
  omega

theorem fits_shows {f : Bool} {s : Sq} {cs : List Node} (hf : Fits f s cs) (hx : s.regular = true) : Shows s (extractAdm (admSets cs)) := by
  have eol : Shows (.nil true) (complementSet [10]) := by
    refine ⟨fun x => by rw [mem_eolSet]; simp [Sq.shown], sorted_complementSet (by simp [Sorted]), fun x hx => ?_⟩
    simp [Sq.shown, ascii] at hx
    rw [mem_allChars]; omega
  induction hf with
  | nil => exact ⟨by simp [admSets, extractAdm, Sq.shown], by simp [admSets, extractAdm, Sorted], by simp [Sq.shown]⟩
  | dollar =>
    simp only [admSets, admSet, extractAdm_one, ite_self]
    exact eol
  | dollar' =>
    simp only [admSets, admSet, extractAdm_one]
    exact eol
  | @once a m s cs ha hf ih =>
    simp only [admSets, extractAdm_one, admSet, ha.size, Nat.one_ne_zero, if_false]
    exact shows_simple ha
  | last ha => simp only [admSets, extractAdm_one]; exact shows_simple ha
  | @exact a m s cs d md ha hf ih =>
    simp only [Sq.regular, Bool.and_eq_true, Quant.sane, Quant.hi, Quant.lo] at hx
    have h0 : (Quant.exact d md).lo ≠ 0 := by
      have := hx.1.1.2.2
      simp only [Quant.lo, ne_eq]
      simp at this
      omega
    have := shows_loop (k := .exact d md) ha (ih hx.2)
    simp only [admSets, extractAdm_one, admSet]
    rwa [if_neg h0] at this
  | @possessive a m k s cs ha hf h1 h2 ih =>
    simp only [Sq.regular, Bool.and_eq_true] at hx
    simp only [admSets, extractAdm_one, admSet]
    exact shows_loop ha (ih hx.2)
  | @greedy a m k s cs ha hf h1 h2 h3 ih =>
    simp only [Sq.regular, Bool.and_eq_true] at hx
    simp only [admSets, extractAdm_one, admSet]
    exact shows_loop ha (ih hx.2)
  | @lazy a m k s cs ha hf h1 h2 h3 ih =>
    simp only [Sq.regular, Bool.and_eq_true] at hx
    simp only [admSets, extractAdm_one, admSet]
    exact shows_loop ha (ih hx.2)

theorem isEmpty_inter {a b : List Int} (ha : Sorted a) (hb : Sorted b) : (intersectSets a b).isEmpty = false ↔ ∃ x, x ∈ a ∧ x ∈ b := by
  constructor
  · intro h
    cases he : intersectSets a b with
    | nil => rw [he] at h; simp at h
    | cons x l => exact ⟨x, (mem_intersectSets ha hb x).1 (by rw [he]; simp)⟩
  · rintro ⟨x, h⟩
    have := (mem_intersectSets ha hb x).2 h
    cases he : intersectSets a b with
    | nil => rw [he] at this; simp at this
    | cons => rfl

theorem opt_fits {f : Bool} {s : Sq} {cs : List Node} (hf : Fits f s cs) (hx : s.regular = true) : Fits true s (opts cs) := by
  induction hf with
  | nil => exact .nil _
  | dollar => exact .dollar' _
  | dollar' => exact .dollar' _
  | @once a m s cs ha hf ih =>
    simp only [Sq.regular, Bool.and_eq_true] at hx
    have := ih hx.2
    cases cs with
    | nil =>
      cases hf
      exact .last ha.opt
    | cons c cs => simpa only [opts, opt] using Fits.once ha.opt this
  | last ha => exact .last ha.opt
  | @exact a m s cs d md ha hf ih =>
    simp only [Sq.regular, Bool.and_eq_true] at hx
    exact .exact ha.opt (ih hx.2)
  | @possessive a m k s cs ha hf h1 h2 ih =>
    simp only [Sq.regular, Bool.and_eq_true] at hx
    exact .possessive ha.opt (ih hx.2) h1 h2
  | @greedy a m k s cs ha hf h1 h2 h3 ih =>
    simp only [Sq.regular, Bool.and_eq_true] at hx
    have hs := fits_shows hf hx.2
    have key : (intersectSets (admSet m) (extractAdm (admSets cs ++ []))).isEmpty = false ↔ keeps a k s = true := by
      rw [List.append_nil, isEmpty_inter ha.sorted hs.sorted]
      simp only [keeps, h2, meets_iff, ha.adm, hs.adm]
      exact ⟨fun ⟨x, h1, h2⟩ => ⟨x, ha.char x h1, h1, h2⟩, fun ⟨x, _, h1, h2⟩ => ⟨x, h1, h2⟩⟩
    simp only [opts, opt]
    split
    · rename_i he
      refine .possessive ha.opt (ih hx.2) h1 ?_
      cases hk : keeps a k s with
      | false => rfl
      | true => rw [key.2 hk] at he; simp at he
    · rename_i he
      exact .greedy ha.opt (ih hx.2) h1 h2 (fun _ => key.1 (by simpa using he))
  | @lazy a m k s cs ha hf h1 h2 h3 ih =>
    simp only [Sq.regular, Bool.and_eq_true] at hx
    have hs := fits_shows hf hx.2
    have hl := shows_loop (k := k) ha hs
    have key : (intersectSets (admSet (.lazy m k.lo k.hiN cs)) (extractAdm (admSets cs ++ []))).isEmpty = false ↔ keeps a k s = true := by
      rw [List.append_nil, isEmpty_inter (by simpa only [admSet] using hl.sorted) hs.sorted]
      simp only [keeps, h2, Bool.or_eq_true, Bool.and_eq_true, meets_iff, admSet, hl.adm, hs.adm, Sq.shown]
      constructor
      · rintro ⟨x, hx1 | ⟨hx1, hx2⟩, hx3⟩
        · exact Or.inl ⟨x, ha.char x hx1, hx1, hx3⟩
        · exact Or.inr ⟨hx1, x, hs.char x hx3, hx3, hx3⟩
      · rintro (⟨x, _, h1, h2⟩ | ⟨h0, x, _, h1, _⟩)
        · exact ⟨x, Or.inl h1, h2⟩
        · exact ⟨x, Or.inr ⟨h0, h1⟩, h1⟩
    simp only [opts, opt]
    split
    · rename_i he
      refine .possessive ha.opt (ih hx.2) h1 ?_
      cases hk : keeps a k s with
      | false => rfl
      | true => rw [key.2 hk] at he; simp at he
    · rename_i he
      exact .lazy ha.opt (ih hx.2) h1 h2 (fun _ => key.1 (by simpa using he))

/-! ## building -/

/-- What a one-character tree shows. -/
structure Adm (n : Node) (S : Int → Bool) : Prop where
  mem : ∀ x, x ∈ admSet n ↔ S x = true
  sorted : Sorted (admSet n)
  size : minSize n = 1
  noslot : slots n = []

theorem adm_exact (c : Int) (d : List Int) : Adm (.exact [c] d) (fun x => x == c) :=
  ⟨by simp [admSet], by simp [admSet, Sorted], by simp [minSize, wrap32], rfl⟩

theorem adm_range (a b : Int) (d : List Int) : Adm (.range a b d) (fun x => decide (a ≤ x) && decide (x ≤ b)) :=
  ⟨by simp [admSet, mem_admRange], sorted_admRange a b, rfl, rfl⟩

theorem adm_wrap {n : Node} {S : Int → Bool} (h : Adm n S) : Adm (.simple n []) S where
  mem := by simp only [admSet, admSets, extractAdm_one, ite_self]; exact h.mem
  sorted := by simp only [admSet, admSets, extractAdm_one, ite_self]; exact h.sorted
  size := by rw [minSize_simple_nil]; exact h.size
  noslot := by simp [slots, slotss, h.noslot]

theorem adm_negated {n : Node} {S : Int → Bool} (h : Adm n S) : Adm (.negated n) (fun x => S x != ascii x) where
  mem := by
    intro x
    simp only [admSet, extractAdm_one]
    rw [mem_complementSet h.sorted, h.mem]
    cases S x <;> simp [ascii] <;> omega
  sorted := by simp only [admSet, extractAdm_one]; exact sorted_complementSet h.sorted
  size := by simpa [minSize] using h.size
  noslot := by simpa [slots] using h.noslot

theorem adm_space : Adm .space (escape 115) :=
  ⟨by simp [admSet, spaceSet, escape, or_assoc], by simp [admSet, spaceSet, Sorted], rfl, rfl⟩

theorem adm_word : Adm .word (escape 119) :=
  ⟨fun x => by simp only [admSet, mem_wordSet]; simp [escape, or_assoc], by unfold Sorted; decide +kernel, rfl, rfl⟩

theorem adm_esc (c : Int) (h : escB c = true) {t : Node} (ht : terminalOf [92, c] = some t) : Adm t (escape c) := by
  by_cases h1 : c = 97
  · subst h1; cases ht; exact adm_exact 7 _
  by_cases h2 : c = 114
  · subst h2; cases ht; exact adm_exact 13 _
  by_cases h3 : c = 101
  · subst h3; cases ht; exact adm_exact 27 _
  by_cases h4 : c = 102
  · subst h4; cases ht; exact adm_exact 12 _
  by_cases h5 : c = 110
  · subst h5; cases ht; exact adm_exact 10 _
  by_cases h6 : c = 116
  · subst h6; cases ht; exact adm_exact 9 _
  by_cases h7 : c = 100
  · subst h7; cases ht; exact adm_range 48 57 _
  by_cases h8 : c = 115
  · subst h8; cases ht; exact adm_space
  by_cases h9 : c = 119
  · subst h9; cases ht; exact adm_word
  simp [escB] at h
  have e : terminalOf [92, c] = some (.exact [c] [92, c]) := by
    unfold terminalOf
    split <;> simp_all
  rw [e] at ht; cases ht
  have : escape c = fun x => x == c := by
    funext x; unfold escape
    simp [*]
  rw [this]; exact adm_exact c _

theorem adm_item {i : Item} (hok : i.ok = true) {n : Node} (h : itemNode i = some n) : Adm n i.test := by
  cases i with
  | chr c => cases h; exact adm_wrap (adm_exact c _)
  | rng a b => cases h; exact adm_wrap (adm_range a b _)
  | esc c =>
    simp only [itemNode, Option.map_eq_some_iff] at h
    obtain ⟨t, ht, rfl⟩ := h
    exact adm_wrap (adm_esc c hok ht)

/-- The characters a class shows. -/
def shownItems (items : List Item) (dash : Bool) (x : Int) : Bool :=
  match items with
  | i :: _ => i.test x
  | [] => dash && x == 45

theorem classItems_adm (d : Bool) : ∀ (items : List Item) (f : Nat) (ns : List Node), items.all Item.ok = true →
    classItems f (items.flatMap Item.toks ++ dashToks d) = some ns →
    (∀ n ∈ ns, ∃ S, Adm n S) ∧ ∀ n ns', ns = n :: ns' → Adm n (shownItems items d)
  | [], f, ns, _, e => by
    cases d with
    | false => cases f <;> (simp [dashToks, classItems] at e; subst e; simp)
    | true =>
      cases f with
      | zero => simp [dashToks, classItems] at e
      | succ f =>
        simp only [List.flatMap_nil, dashToks, List.nil_append, if_true] at e
        rw [classItems_chr (by simp)] at e
        have := adm_wrap (adm_exact 45 [45])
        cases f <;> (simp [classItems] at e; subst e; refine ⟨by simpa using ⟨_, this⟩, ?_⟩; rintro n ns' ⟨⟩; exact this)
  | it :: items, f, ns, h, e => by
    cases f with
    | zero => cases it <;> simp [Item.toks, classItems] at e
    | succ f =>
      obtain ⟨n, ns', h1, rfl, h3⟩ := classItems_cons d it items h f e
      simp only [List.all_cons, Bool.and_eq_true] at h
      have ha := adm_item h.1 h1
      refine ⟨?_, ?_⟩
      · intro x hx
        rcases List.mem_cons.1 hx with rfl | hx
        · exact ⟨_, ha⟩
        · exact (classItems_adm d items f ns' h.2 h3).1 x hx
      · rintro x xs e
        simp only [List.cons.injEq] at e
        obtain ⟨rfl, _⟩ := e
        exact ha

theorem minSizes_ones : ∀ (ns : List Node), (∀ n ∈ ns, ∃ S, Adm n S) → ns ≠ [] → listMin (minSizes ns) = 1
  | [], _, h => absurd rfl h
  | [n], h, _ => by obtain ⟨S, hS⟩ := h n (by simp); simp [minSizes, listMin, hS.size]
  | n :: n' :: ns, h, _ => by
    obtain ⟨S, hS⟩ := h n (by simp)
    have := minSizes_ones (n' :: ns) (fun x hx => h x (by simp [hx])) (by simp)
    simp only [minSizes, listMin] at this ⊢
    rw [this, hS.size]; rfl

theorem slotss_none : ∀ (ns : List Node), (∀ n ∈ ns, ∃ S, Adm n S) → slotss ns = []
  | [], _ => rfl
  | n :: ns, h => by
    obtain ⟨S, hS⟩ := h n (by simp)
    simp [slotss, hS.noslot, slotss_none ns (fun x hx => h x (by simp [hx]))]

theorem classNode_adm (items : List Item) (d : Bool) (h : items.all Item.ok = true) {n : Node}
    (e : classNode (items.flatMap Item.toks ++ dashToks d) = some n) : Adm n (shownItems items d) := by
  unfold classNode at e
  split at e
  · simp at e
  · simp at e
  · rename_i ns hne hci
    simp only [Option.some.injEq] at e
    subst e
    obtain ⟨h1, h2⟩ := classItems_adm d items _ ns h hci
    cases ns with
    | nil => exact absurd rfl hne
    | cons x xs =>
      have hx := h2 x xs rfl
      have : admSet (.alt (x :: xs)) = admSet x := by
        cases xs with
        | nil => simp [admSet, extractAdm_one]
        | cons y ys => simp [admSet, extractAdm_one, hx.size]
      refine ⟨by rw [this]; exact hx.mem, by rw [this]; exact hx.sorted, ?_, ?_⟩
      · simp only [minSize]; exact minSizes_ones _ h1 (by simp)
      · simp only [slots]; exact slotss_none _ h1

theorem atom_node (a : Atom) (h : a.ok = true) (hs : (a.steady || a.skips) = true) (hc : ∀ x ∈ a.spell, x ∈ allChars) :
    ∃ n b, Atomic a n ∧ ∀ c rest, classify c (a.toks ++ rest) = .node (.simple n []) b rest := by
  have hg : ∀ c as, a ≠ .group c as := by rintro c as rfl; simp [Atom.steady, Atom.skips] at hs
  have fin : ∀ (n : Node) (b : Bool), (∀ c rest, classify c (a.toks ++ rest) = .node (.simple n []) b rest) →
      (a.steady = true → single n = true) → (a.skips = true → skipping n = true) → ClassOf n a.set → Adm n a.shown →
      (∀ x, a.shown x = true → x ∈ allChars) →
      ∃ n b, Atomic a n ∧ ∀ c rest, classify c (a.toks ++ rest) = .node (.simple n []) b rest := by
    intro n b hcl h1 h2 h3 h4 h5
    refine ⟨n, b, ⟨?_, h1, h3, h4.mem, h4.sorted, h4.size, h4.noslot, h5⟩, hcl⟩
    simp only [oneCh, Bool.or_eq_true] at hs ⊢
    rcases hs with hs | hs
    · exact Or.inl (h1 hs)
    · exact Or.inr (h2 hs)
  have bytes : ∀ v, byte v ∈ allChars := fun v => by rw [mem_allChars]; unfold byte; omega
  have escc : ∀ c x, escape c x = true → c ∈ allChars → x ∈ allChars := by
    intro c x hx hcc
    rw [mem_allChars] at hcc ⊢
    unfold escape at hx
    (repeat' split at hx) <;> simp at hx <;> omega
  have itemc : ∀ i : Item, (∀ x ∈ i.spell, x ∈ allChars) → ∀ x, i.test x = true → x ∈ allChars := by
    intro i hi x hx
    cases i with
    | chr c => simp [Item.test] at hx; subst hx; exact hi x (by simp [Item.spell])
    | esc c => exact escc c x hx (hi c (by simp [Item.spell]))
    | rng a b =>
      have h1 := hi a (by simp [Item.spell]); have h2 := hi b (by simp [Item.spell])
      rw [mem_allChars] at h1 h2 ⊢
      simp [Item.test] at hx; omega
  cases a with
  | chr c =>
    refine fin _ _ (fun b rest => classify_plain b c h rest) (fun _ => rfl) (by simp [Atom.skips]) (classOf_exact c _) (adm_exact c _) ?_
    intro x hx
    simp [Atom.shown, Atom.set] at hx; subst hx
    exact hc x (by simp [Atom.spell])
  | esc c =>
    obtain ⟨t, ht, hcl⟩ := terminalOf_esc c h
    refine fin _ _ (fun b rest => classify_esc b c h rest ht) (fun hs => ?_) (fun hs => ?_) hcl (adm_esc c h ht)
      (fun x hx => escc c x hx (hc c (by simp [Atom.spell])))
    · simp only [Atom.steady, bne_iff_ne] at hs
      exact terminalOf_single c h hs ht
    · simp only [Atom.skips, beq_iff_eq] at hs
      subst hs; cases ht; rfl
  | dot =>
    refine fin _ _ (fun b rest => classify_dot b rest) (fun _ => rfl) (by simp [Atom.skips]) (classOf_cls rfl)
      ⟨by simp [admSet, mem_admRange, Atom.shown, ascii], sorted_admRange _ _, rfl, rfl⟩ ?_
    intro x hx
    simp [Atom.shown, ascii] at hx
    rw [mem_allChars]; omega
  | hex x y =>
    simp only [Atom.ok, Bool.and_eq_true] at h
    have h1 := classOf_exact (hexPair x y) [hexPair x y]
    have h2 := adm_exact (hexPair x y) [hexPair x y]
    rw [hexPair_byte h.1 h.2] at h1 h2
    refine fin _ false (fun b rest => ?_) (fun _ => rfl) (by simp [Atom.skips]) h1 h2 ?_
    · have := classify_hex b x y h.1 h.2 rest
      rwa [hexPair_byte h.1 h.2] at this
    · intro z hz
      simp [Atom.shown, Atom.set] at hz; subst hz; exact bytes _
  | oct x y z =>
    simp only [Atom.ok, Bool.and_eq_true] at h
    have h1 := classOf_exact (octTriple x y z) [octTriple x y z]
    have h2 := adm_exact (octTriple x y z) [octTriple x y z]
    rw [octTriple_byte h.1.1 h.1.2 h.2] at h1 h2
    refine fin _ false (fun b rest => ?_) (fun _ => rfl) (by simp [Atom.skips]) h1 h2 ?_
    · have := classify_oct b x y z h.1.1 h.1.2 h.2 rest
      rwa [octTriple_byte h.1.1 h.1.2 h.2] at this
    · intro z hz
      simp [Atom.shown, Atom.set] at hz; subst hz; exact bytes _
  | group c as => exact absurd rfl (hg c as)
  | cls neg items dash =>
    have shn : Atom.shown (.cls neg items dash) = fun x => shownItems items dash x != (neg && ascii x) := by
      funext x; cases items <;> rfl
    have hchar : ∀ x, Atom.shown (.cls neg items dash) x = true → x ∈ allChars := by
      intro x hx
      rw [shn] at hx
      by_cases h1 : shownItems items dash x = true
      · cases items with
        | nil =>
          simp [shownItems] at h1
          rw [h1.2, mem_allChars]; omega
        | cons i items =>
          exact itemc i (fun y hy => hc y (by simp [Atom.spell, hy])) x h1
      · simp only [Bool.not_eq_true] at h1
        simp [h1, ascii] at hx
        rw [mem_allChars]; omega
    simp only [Atom.ok, Bool.and_eq_true] at h
    obtain ⟨n, h1, h2⟩ := classNode_ok items dash h.1 h.2
    have hadm := classNode_adm items dash h.1 h1
    have hx := fun rest => extract_wellNested .square (wellNested_noBrackets (items_noBracket items dash h.1)) rest
    have hn : (items.all Item.steady = true → single n = true) ∧
        (dash = false → items.dropLast.all Item.steady = true → items.any (fun i => !i.steady) = true → skipping n = true) := by
      unfold classNode at h1
      split at h1
      · simp at h1
      · simp at h1
      · rename_i ns hne hci
        simp only [Option.some.injEq] at h1
        subst h1
        refine ⟨fun hs => ?_, fun hd hl hs' => ?_⟩
        · have := classItems_single dash items _ _ h.1 hs hci
          simp only [single, this, Bool.and_true]
          cases ns with
          | nil => exact absurd rfl hne
          | cons => rfl
        · subst hd
          simpa [skipping] using classItems_skip items _ _ h.1 hl hs' hci
    cases neg with
    | false =>
      have hcl : ClassOf n (fun x => listed items dash x != false) := by simpa using h2
      refine fin n true (fun c rest => ?_) (fun hs => ?_) (fun hs => ?_) hcl (by rw [shn]; simpa using hadm) hchar
      · simp only [Atom.toks, hatToks, List.cons_append]
        rw [classify_class, show (((if false = true then [[94]] else []) ++ (items.flatMap Item.toks ++ dashToks dash) ++ [[93]]) ++ rest) =
          (items.flatMap Item.toks ++ dashToks dash) ++ [93] :: rest by simp, hx]
        · simp only [h1]
        · intro tl e
          cases items with
          | nil => cases dash <;> simp [dashToks] at e
          | cons i items =>
            simp only [List.all_cons, Bool.and_eq_true] at h
            have := h.1.1
            cases i <;> simp [Item.toks, Item.ok, classB] at e this
            · omega
            · omega
      · simp only [Atom.steady, Bool.not_false, Bool.true_and] at hs
        exact hn.1 hs
      · simp only [Atom.skips, Bool.and_eq_true, Bool.not_eq_true'] at hs
        exact hn.2 hs.1.1 hs.1.2 hs.2
    | true =>
      have hcl : ClassOf (.negated n) (fun x => listed items dash x != true) := by
        have := classOf_negated h2
        simpa using this
      refine fin (.negated n) true (fun c rest => ?_) (fun hs => ?_) (fun hs => ?_) hcl (by rw [shn]; simpa using adm_negated hadm) hchar
      · simp only [Atom.toks, hatToks, List.cons_append]
        rw [show ((if True then [[94]] else []) ++ (items.flatMap Item.toks ++ dashToks dash) ++ [[93]]) ++ rest =
          [94] :: ((items.flatMap Item.toks ++ dashToks dash) ++ [93] :: rest) by simp, classify_negclass, hx]
        simp only [h1]
      · simp [Atom.steady] at hs
      · simp only [Atom.skips] at hs
        simp [skipping, hn.1 hs]

end ERegex

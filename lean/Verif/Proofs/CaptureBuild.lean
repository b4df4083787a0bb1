import Verif.Proofs.Ways
import Verif.Proofs.PreferSearch
import Verif.Proofs.Groups
/-!
# Captures: the compiled tree of a pattern with groups
-/
set_option autoImplicit false
namespace ERegex
open ERegex.Spec ERegex.Props

/-! ## the tree -/

/-- Tree of a group that contains one repetition. -/
inductive Loop (f : Bool) (a : Atom) (k : Quant) (s : Sq) : Node → Prop
  | possessive {m : Node} : Atomic a m → (k.mode ≠ .possessive → meets a.shown s.looks = false) → Loop f a k s (.possessive m k.lo k.hiN [])
  | greedy {m : Node} : Atomic a m → k.mode = .greedy → (f = true → meets a.shown s.looks = true) → Loop f a k s (.greedy m k.lo k.hiN [])
  | lazy {m : Node} : Atomic a m → k.mode = .lazy → (f = true → meets a.shown s.looks = true) → Loop f a k s (.lazy m k.lo k.hiN [])
  | wrap {t : Node} : Loop f a k s t → Loop f a k s (.alt [t])

/-- A one-character atom. -/
def Plain (a : Atom) : Prop := (a.steady || a.skips) = true

/-- The tree of a group that is repeated. -/
inductive Inner (f : Bool) (n : Nat) (as : Alts) : Bool → Node → Prop
  | cap {m : Node} : Whole f as.bodies m → Inner f n as true (.group m n [])
  | simple {m : Node} : Whole f as.bodies m → Inner f n as false (.simple m [])
  | bare {m : Node} : Whole f as.bodies m → Inner f n as false m

/-- Trees for a sequence; `f`: the tree has been optimized; `n`: number of the first group. -/
inductive FitsC : Bool → Nat → Sq → List Node → Prop
  | nil (f : Bool) (n : Nat) : FitsC f n (.nil false) []
  | dollar (f : Bool) (n : Nat) : FitsC f n (.nil true) [.simple .eol []]
  | dollar' (f : Bool) (n : Nat) : FitsC f n (.nil true) [.eol]
  | once {f : Bool} {n : Nat} {a : Atom} {m : Node} {s : Sq} {cs : List Node} : Plain a → Atomic a m → FitsC f n s cs →
      FitsC f n (.cons a .once s) [.simple m cs]
  | last {f : Bool} {n : Nat} {a : Atom} {m : Node} : Plain a → Atomic a m → FitsC f n (.cons a .once (.nil false)) [m]
  | exact {f : Bool} {n : Nat} {a : Atom} {m : Node} {s : Sq} {cs : List Node} {d : List Int} {md : QMode} : Plain a → Atomic a m → FitsC f n s cs →
      0 < (decimal d).toNat →
      FitsC f n (.cons a (.exact d md) s) [.repeated m (decimal d).toNat cs]
  | possessive {f : Bool} {n : Nat} {a : Atom} {m : Node} {k : Quant} {s : Sq} {cs : List Node} : Plain a → Atomic a m → FitsC f n s cs →
      k.fixed = false → clings a k s = false → FitsC f n (.cons a k s) [.possessive m k.lo k.hiN cs]
  | greedy {f : Bool} {n : Nat} {a : Atom} {m : Node} {k : Quant} {s : Sq} {cs : List Node} : Plain a → Atomic a m → FitsC f n s cs →
      k.fixed = false → k.mode = .greedy → (f = true → clings a k s = true) → FitsC f n (.cons a k s) [.greedy m k.lo k.hiN cs]
  | lazy {f : Bool} {n : Nat} {a : Atom} {m : Node} {k : Quant} {s : Sq} {cs : List Node} : Plain a → Atomic a m → FitsC f n s cs →
      k.fixed = false → k.mode = .lazy → (f = true → clings a k s = true) → FitsC f n (.cons a k s) [.lazy m k.lo k.hiN cs]
  | cap {f : Bool} {n : Nat} {as : Alts} {m : Node} {s : Sq} {cs : List Node} : Whole f as.bodies m → FitsC f (n + 1) s cs →
      bodyOk true as s = true → (∀ a k, as = .last false (.cons a k (.nil false)) → k.fixed = true) →
      FitsC f n (.cons (.group true as) .once s) [.group m n cs]
  | capLoop {f : Bool} {n : Nat} {a : Atom} {k : Quant} {m : Node} {s : Sq} {cs : List Node} : Loop f a k s m → FitsC f (n + 1) s cs →
      k.fixed = false → loopOk a k s = true →
      FitsC f n (.cons (.group true (.last false (.cons a k (.nil false)))) .once s) [.group m n cs]
  | non {f : Bool} {n : Nat} {as : Alts} {m : Node} {s : Sq} {cs : List Node} : Whole f as.bodies m → FitsC f n s cs →
      bodyOk false as s = true → FitsC f n (.cons (.group false as) .once s) [.simple m cs]
  | nonLast {f : Bool} {n : Nat} {as : Alts} {m : Node} : Whole f as.bodies m →
      bodyOk false as (.nil false) = true → FitsC f n (.cons (.group false as) .once (.nil false)) [m]
  | repPoss {f : Bool} {n : Nat} {c : Bool} {as : Alts} {m : Node} {k : Quant} {s : Sq} {cs : List Node} : Inner f n as c m → FitsC f (n + c.toNat) s cs →
      k.fixed = false → repOk c as k s = true → FitsC f n (.cons (.group c as) k s) [.possessive m k.lo k.hiN cs]
  | repGreedy {f : Bool} {n : Nat} {c : Bool} {as : Alts} {m : Node} {k : Quant} {s : Sq} {cs : List Node} : f = false → Inner f n as c m →
      FitsC f (n + c.toNat) s cs → k.fixed = false → k.mode = .greedy → repOk c as k s = true → FitsC f n (.cons (.group c as) k s) [.greedy m k.lo k.hiN cs]
  | repExact {f : Bool} {n : Nat} {c : Bool} {as : Alts} {m : Node} {d : List Int} {md : QMode} {s : Sq} {cs : List Node} : Inner f n as c m →
      FitsC f (n + c.toNat) s cs → 0 < (decimal d).toNat → repOk c as (.exact d md) s = true →
      FitsC f n (.cons (.group c as) (.exact d md) s) [.repeated m (decimal d).toNat cs]

/-! ## bodies -/

theorem bodies_mem : ∀ (as : Alts) (x : Bool × Sq), x ∈ as.bodies → x.2 ∈ as.list
  | .last hat s, x, h => by simp [Alts.bodies] at h; subst h; simp [Alts.list]
  | .more hat s as, x, h => by
    simp only [Alts.bodies, List.mem_cons] at h
    rcases h with rfl | h
    · simp [Alts.list]
    · simp [Alts.list, bodies_mem as x h]

theorem bare_bodies : ∀ (as : Alts), as.bare = true → ∀ x ∈ as.bodies, x.1 = false ∧ x.2.dollar = false
  | .last hat s, h, x, hx => by
    simp [Alts.bodies] at hx; subst hx; simpa [Alts.bare] using h
  | .more hat s as, h, x, hx => by
    simp only [Alts.bare, Bool.and_eq_true, Bool.not_eq_true'] at h
    simp only [Alts.bodies, List.mem_cons] at hx
    rcases hx with rfl | hx
    · exact h.1
    · exact bare_bodies as h.2 x hx

structure BodyFacts (as : Alts) (s : Sq) : Prop where
  regular : ∀ x ∈ as.bodies, x.2.regular = true
  empty : ∀ x ∈ as.bodies, x.2.empty = false
  least : ∀ x ∈ as.bodies, x.2.least < 4294967296
  hat : ∀ x ∈ as.bodies, x.1 = false
  dollar : ∀ x ∈ as.bodies, x.2.dollar = false
  works : s.voids = true ∨ (∀ b ∈ as.list, settled s b = true) ∧ Spec.apart s as.list = true

theorem body_facts {capture : Bool} {as : Alts} {s : Sq} (h : bodyOk capture as s = true) : BodyFacts as s := by
  simp only [bodyOk, Bool.and_eq_true, Bool.or_eq_true, List.all_eq_true, Bool.not_eq_true', decide_eq_true_eq] at h
  refine ⟨fun x hx => ?_, fun x hx => ?_, fun x hx => ?_, fun x hx => ?_, fun x hx => ?_, h.1.2⟩
  · exact (h.1.1.2 _ (bodies_mem as x hx)).1.1
  · exact (h.1.1.2 _ (bodies_mem as x hx)).1.2
  · exact (h.1.1.2 _ (bodies_mem as x hx)).2
  · exact (bare_bodies as h.1.1.1 x hx).1
  · exact (bare_bodies as h.1.1.1 x hx).2

/-- The body of a quantified group could stand alone. -/
theorem rep_body {c : Bool} {as : Alts} {k : Quant} {s : Sq} (h : repOk c as k s = true) : bodyOk false as (.nil false) = true := by
  simp only [repOk, Bool.and_eq_true, List.all_eq_true] at h
  obtain ⟨⟨⟨⟨⟨⟨h1, h2⟩, h3⟩, _⟩, _⟩, _⟩, _⟩ := h
  simp only [bodyOk, Sq.voids, Bool.not_false, Bool.true_or, Bool.and_true, Bool.and_eq_true, List.all_eq_true, Bool.false_eq_true, if_false]
  refine ⟨⟨h1, fun b hb => (h2 b hb).1⟩, ?_⟩
  cases as with
  | last hat b => exact (h2 b (by simp [Alts.list])).2
  | more hat b as =>
    simp only [List.all_eq_true] at h3 ⊢
    intro x hx
    simp only [Bool.and_eq_true]
    exact ⟨(h2 x hx).2, h3 x hx⟩

theorem rep_sane {c : Bool} {as : Alts} {k : Quant} {s : Sq} (h : repOk c as k s = true) : k.sane = true := by
  simp only [repOk, Bool.and_eq_true] at h
  exact h.1.1.1.2

/-- Alternatives in a group must take a character and begin with an unquantified steady atom. -/
theorem body_more {capture : Bool} {hat : Bool} {b : Sq} {as : Alts} {s : Sq} (h : bodyOk capture (.more hat b as) s = true) :
    ∀ x ∈ (Alts.more hat b as).bodies, x.2.eats = true ∧ x.2.steadyHead = true := by
  simp only [bodyOk, Bool.and_eq_true, List.all_eq_true] at h
  exact fun x hx => h.2 _ (bodies_mem _ x hx)

theorem group_cases {capture : Bool} {as : Alts} {s : Sq} (h : groupOk capture as s = true) :
    (bodyOk capture as s = true ∧ (capture = true → ∀ a k, as = .last false (.cons a k (.nil false)) → k.fixed = true)) ∨
    ∃ a k, capture = true ∧ as = .last false (.cons a k (.nil false)) ∧ k.fixed = false ∧ loopOk a k s = true := by
  unfold groupOk at h
  split at h
  · rename_i a k
    split at h
    · rename_i hk
      exact Or.inl ⟨h, fun _ a' k' e => by cases e; exact hk⟩
    · rename_i hk
      exact Or.inr ⟨a, k, rfl, rfl, by simpa using hk, h⟩
  · rename_i hno
    exact Or.inl ⟨h, fun hc a k e => absurd e (hno a k hc)⟩

/-! ## sizes -/

theorem wrap_le (n m : Nat) : wrap32 ((n : Int) + m) ≤ n + m := by
  unfold wrap32; omega

theorem wrap_le1 (n : Nat) : wrap32 (n : Int) ≤ n := by
  unfold wrap32; omega

theorem wrap_small {n m : Nat} (h : n + m < 4294967296) : wrap32 ((n : Int) + m) = n + m := by
  unfold wrap32; omega

theorem wrap_small1 {n : Nat} (h : n < 4294967296) : wrap32 (n : Int) = n := by
  unfold wrap32; omega

theorem fits_size {f : Bool} {s : Sq} {cs : List Node} (hf : Fits f s cs) : listMin (minSizes cs) ≤ s.least ∧
    (s.least < 4294967296 → s.eats = true → s.regular = true → 1 ≤ listMin (minSizes cs)) := by
  have loop : ∀ {a : Atom} {m : Node} {k : Quant} {s : Sq} {cs : List Node}, Atomic a m →
      (listMin (minSizes cs) ≤ s.least ∧ (s.least < 4294967296 → s.eats = true → s.regular = true → 1 ≤ listMin (minSizes cs))) →
      wrap32 ((wrap32 (minSize m * k.lo) : Nat) + listMin (minSizes cs)) ≤ (Sq.cons a k s).least ∧
      ((Sq.cons a k s).least < 4294967296 → (Sq.cons a k s).eats = true → (Sq.cons a k s).regular = true →
        1 ≤ wrap32 ((wrap32 (minSize m * k.lo) : Nat) + listMin (minSizes cs))) := by
    intro a m k s cs ha ih
    have h1 := wrap_le1 k.lo
    rw [ha.size, show ((1 : Nat) : Int) * (k.lo : Int) = (k.lo : Int) by omega]
    have h2 := wrap_le (wrap32 k.lo) (listMin (minSizes cs))
    simp only [Sq.least, Sq.eats, Sq.regular, Bool.or_eq_true, Bool.and_eq_true, bne_iff_ne]
    refine ⟨by omega, fun h3 h4 h5 => ?_⟩
    have h6 := wrap_small1 (n := k.lo) (by omega)
    rw [h6, wrap_small (by omega)]
    rcases h4 with h4 | h4
    · omega
    · have := ih.2 (by omega) h4 h5.2; omega
  induction hf with
  | nil => simp [minSizes, listMin, Sq.least, Sq.eats]
  | dollar => simp [minSizes, listMin, Sq.least, Sq.eats, minSize, wrap32]
  | dollar' => simp [minSizes, listMin, Sq.least, Sq.eats, minSize]
  | @once a m s cs ha hf ih =>
    simp only [minSizes, listMin, minSize, ha.size, Sq.least, Quant.lo]
    have h2 := wrap_le 1 (listMin (minSizes cs))
    refine ⟨by omega, fun h3 h4 h5 => ?_⟩
    rw [wrap_small (by omega)]; omega
  | last ha => simp [minSizes, listMin, ha.size, Sq.least, Quant.lo]
  | @exact a m s cs d md ha hf ih =>
    simp only [minSizes, listMin, minSize, ha.size, Sq.least, Quant.lo]
    rw [show ((1 : Nat) : Int) * ((decimal d).toNat : Int) = ((decimal d).toNat : Int) by omega]
    have h2 := wrap_le1 (decimal d).toNat
    refine ⟨by omega, fun h3 h4 h5 => ?_⟩
    rw [wrap_small1 (by omega)]
    simp only [Sq.regular, Bool.and_eq_true, Quant.sane, Quant.hi, decide_eq_true_eq] at h5
    omega
  | possessive ha hf h1 h2 ih => simpa only [minSizes, listMin, minSize] using loop ha ih
  | greedy ha hf h1 h2 h3 ih => simpa only [minSizes, listMin, minSize] using loop ha ih
  | lazy ha hf h1 h2 h3 ih => simpa only [minSizes, listMin, minSize] using loop ha ih

/-! ## what the library looks at -/

/-- The first characters, in the library's eyes. -/
structure Looks (s : Sq) (l : List Int) : Prop where
  adm : ∀ x, x ∈ l ↔ s.looks x = true
  sorted : Sorted l
  char : ∀ x, s.looks x = true → x ∈ allChars

theorem looks_atom {a : Atom} (h : (a.steady || a.skips) = true) (k : Quant) (s : Sq) (x : Int) :
    (Sq.cons a k s).looks x = (a.shown x || (k.lo == 0 && s.looks x)) := by
  cases a <;> first | rfl | simp [Atom.steady, Atom.skips] at h

theorem looks_simple {a : Atom} {m : Node} {s : Sq} (hp : Plain a) (h : Atomic a m) : Looks (.cons a .once s) (admSet m) :=
  ⟨fun x => by rw [h.adm, looks_atom hp]; simp [Quant.lo], h.sorted,
    fun x hx => h.char x (by rw [looks_atom hp] at hx; simpa [Quant.lo] using hx)⟩

theorem looks_loop {a : Atom} {m : Node} {k : Quant} {s : Sq} {cs : List Node} (hp : Plain a) (h : Atomic a m)
    (hs : Looks s (extractAdm (admSets cs))) :
    Looks (.cons a k s) (if k.lo = 0 then extractAdm (admSet m :: admSets cs) else admSet m) := by
  split
  · rename_i h0
    refine ⟨fun x => ?_, ?_, fun x hx => ?_⟩
    · simp only [extractAdm, mem_mergeSets, h.adm, hs.adm, looks_atom hp, h0, beq_self_eq_true, Bool.true_and, Bool.or_eq_true]
    · simp only [extractAdm]; exact sorted_mergeSets h.sorted hs.sorted
    · simp only [looks_atom hp, h0, beq_self_eq_true, Bool.true_and, Bool.or_eq_true] at hx
      rcases hx with hx | hx
      · exact h.char x hx
      · exact hs.char x hx
  · rename_i h0
    exact ⟨fun x => by rw [h.adm, looks_atom hp]; simp [h0], h.sorted, fun x hx => h.char x (by rw [looks_atom hp] at hx; simpa [h0] using hx)⟩

theorem top_shows {f : Bool} {x : Bool × Sq} {t : Node} (h : Top f x t) (hh : x.1 = false) (hr : x.2.regular = true) : Shows x.2 (admSet t) := by
  cases h with
  | hat => simp at hh
  | plain hf =>
    have := fits_shows hf hr
    simpa only [admSets, extractAdm_one] using this

theorem top_size {f : Bool} {x : Bool × Sq} {t : Node} (h : Top f x t) (hh : x.1 = false) (hr : x.2.regular = true)
    (hl : x.2.least < 4294967296) (he : x.2.eats = true) : minSize t ≠ 0 := by
  cases h with
  | hat => simp at hh
  | plain hf =>
    have := (fits_size hf).2 hl he hr
    simp only [minSizes, listMin] at this
    omega

theorem tops_size {f : Bool} {xs : List (Bool × Sq)} {ts : List Node} (h : Tops f xs ts) (hne : xs ≠ []) (hh : ∀ x ∈ xs, x.1 = false)
    (hr : ∀ x ∈ xs, x.2.regular = true) (hl : ∀ x ∈ xs, x.2.least < 4294967296) (he : ∀ x ∈ xs, x.2.eats = true) : listMin (minSizes ts) ≠ 0 := by
  induction h with
  | nil => exact absurd rfl hne
  | @cons x t xs ts h1 h2 ih =>
    have := top_size h1 (hh _ (by simp)) (hr _ (by simp)) (hl _ (by simp)) (he _ (by simp))
    cases h2 with
    | nil => simpa [minSizes, listMin] using this
    | @cons y u ys us h3 h4 =>
      have hi := ih (by simp) (fun z hz => hh z (by simp only [List.mem_cons] at hz ⊢; exact Or.inr hz))
        (fun z hz => hr z (by simp only [List.mem_cons] at hz ⊢; exact Or.inr hz))
        (fun z hz => hl z (by simp only [List.mem_cons] at hz ⊢; exact Or.inr hz))
        (fun z hz => he z (by simp only [List.mem_cons] at hz ⊢; exact Or.inr hz))
      simp only [minSizes, listMin] at hi ⊢
      omega

theorem bodies_head (as : Alts) : ∃ hat xs, as.bodies = (hat, as.head) :: xs := by
  cases as with
  | last hat s => exact ⟨hat, [], rfl⟩
  | more hat s as => exact ⟨hat, as.bodies, rfl⟩

/-- What the tree of a group shows. -/
theorem whole_shows {f : Bool} {capture : Bool} {as : Alts} {s : Sq} {m : Node} (h : Whole f as.bodies m) (hb : bodyOk capture as s = true) :
    Shows as.head (admSet m) := by
  have hF := body_facts hb
  obtain ⟨hat, xs, e⟩ := bodies_head as
  have key : ∀ {t}, Top f (hat, as.head) t → Shows as.head (admSet t) := fun ht =>
    top_shows ht (hF.hat (hat, as.head) (by rw [e]; simp)) (hF.regular (hat, as.head) (by rw [e]; simp))
  rw [e] at h
  cases h with
  | one ht => exact key ht
  | alt ht =>
    cases ht with
    | @cons _ t _ ts h1 h2 =>
      cases h2 with
      | nil => simp only [admSet, extractAdm_one]; exact key h1
      | @cons y u ys us h3 h4 =>
        have hs : minSize t ≠ 0 := by
          cases as with
          | last => simp [Alts.bodies] at e
          | more hat' b as' =>
            have hin : (hat, (Alts.more hat' b as').head) ∈ (Alts.more hat' b as').bodies := by rw [e]; simp
            exact top_size h1 (hF.hat _ hin) (hF.regular _ hin) (hF.least _ hin) (body_more hb _ hin).1
        simp only [admSet, if_neg hs, extractAdm_one]; exact key h1

theorem whole_size {f : Bool} {as : Alts} {s : Sq} {m : Node} (h : Whole f as.bodies m) (hb : bodyOk false as s = true) : minSize m ≠ 0 := by
  have hF := body_facts hb
  have he : ∀ x ∈ as.bodies, x.2.eats = true := by
    cases as with
    | last hat b =>
      simp only [bodyOk, Bool.and_eq_true] at hb
      simpa [Alts.bodies] using hb.2
    | more => exact fun x hx => (body_more hb x hx).1
  generalize hbs : as.bodies = xs at h
  have hne : xs ≠ [] := by obtain ⟨hat, ys, e⟩ := bodies_head as; rw [← hbs, e]; simp
  rw [hbs] at he
  have h1 := hF.hat; have h2 := hF.regular; have h3 := hF.least
  rw [hbs] at h1 h2 h3
  cases h with
  | one ht => exact top_size ht (h1 _ (by simp)) (h2 _ (by simp)) (h3 _ (by simp)) (he _ (by simp))
  | alt ht => simp only [minSize]; exact tops_size ht hne h1 h2 h3 he

theorem looks_once (capture : Bool) (as : Alts) (s : Sq) (x : Int) : (Sq.cons (.group capture as) .once s).looks x = as.head.shown x := by
  simp [Sq.looks, Quant.lo]

theorem looks_group {capture : Bool} {as : Alts} {s : Sq} {l : List Int} (h : Shows as.head l) : Looks (.cons (.group capture as) .once s) l :=
  ⟨fun x => by rw [h.adm, looks_once], h.sorted, fun x hx => h.char x (by rwa [looks_once] at hx)⟩

/-- What the tree of a repeated group shows. -/
theorem inner_shows {f : Bool} {n : Nat} {c : Bool} {as : Alts} {k : Quant} {s : Sq} {m : Node} (h : Inner f n as c m) (hb : repOk c as k s = true) :
    Shows as.head (admSet m) := by
  have hb' := rep_body hb
  cases h with
  | cap hw => simp only [admSet, extractAdm_one]; exact whole_shows hw hb'
  | simple hw => simp only [admSet, extractAdm_one, if_neg (whole_size hw hb')]; exact whole_shows hw hb'
  | bare hw => exact whole_shows hw hb'

theorem looks_rep {f : Bool} {n : Nat} {c : Bool} {as : Alts} {k : Quant} {s : Sq} {m : Node} {cs : List Node} (h : Inner f n as c m) (hb : repOk c as k s = true)
    (hs : Looks s (extractAdm (admSets cs))) :
    Looks (.cons (.group c as) k s) (if k.lo = 0 then extractAdm (admSet m :: admSets cs) else admSet m) := by
  have hi := inner_shows h hb
  split
  · rename_i h0
    refine ⟨fun x => ?_, ?_, fun x hx => ?_⟩
    · simp only [extractAdm, mem_mergeSets, hi.adm, hs.adm, Sq.looks, h0, beq_self_eq_true, Bool.true_and, Bool.or_eq_true]
    · simp only [extractAdm]; exact sorted_mergeSets hi.sorted hs.sorted
    · simp only [Sq.looks, h0, beq_self_eq_true, Bool.true_and, Bool.or_eq_true] at hx
      rcases hx with hx | hx
      · exact hi.char x hx
      · exact hs.char x hx
  · rename_i h0
    exact ⟨fun x => by rw [hi.adm]; simp [Sq.looks, h0], hi.sorted, fun x hx => hi.char x (by simpa [Sq.looks, h0] using hx)⟩

theorem inner_opt {f : Bool} {n : Nat} {c : Bool} {as : Alts} {k : Quant} {s : Sq} {m : Node} (h : Inner f n as c m) (hb : repOk c as k s = true) :
    Inner true n as c (opt m []) := by
  have hr := (body_facts (rep_body hb)).regular
  cases h with
  | cap hw => simp only [opt, admSets, List.append_nil]; exact .cap (whole_opt hw hr)
  | simple hw => simp only [opt]; exact .bare (whole_opt hw hr)
  | bare hw => exact .bare (whole_opt hw hr)

theorem loop_shows {f : Bool} {a : Atom} {k : Quant} {s : Sq} {m : Node} (h : Loop f a k s m) :
    Shows (.cons a k (.nil false)) (admSet m) := by
  have key : ∀ {m : Node}, Atomic a m → Shows (.cons a k (.nil false)) (if k.lo = 0 then extractAdm [admSet m] else admSet m) := by
    intro m ha
    rw [extractAdm_one, ite_self]
    exact ⟨fun x => by rw [ha.adm]; simp [Sq.shown], ha.sorted, fun x hx => ha.char x (by simpa [Sq.shown] using hx)⟩
  induction h with
  | possessive ha _ => simpa only [admSet, admSets] using key ha
  | greedy ha _ _ => simpa only [admSet, admSets] using key ha
  | lazy ha _ _ => simpa only [admSet, admSets] using key ha
  | wrap _ ih => simpa only [admSet, extractAdm_one] using ih

theorem fitsC_looks {f : Bool} {n : Nat} {s : Sq} {cs : List Node} (hf : FitsC f n s cs) : Looks s (extractAdm (admSets cs)) := by
  have eol : Looks (.nil true) (complementSet [10]) := by
    refine ⟨fun x => by rw [mem_eolSet]; simp [Sq.looks], sorted_complementSet (by simp [Sorted]), fun x hx => ?_⟩
    simp [Sq.looks, ascii] at hx
    rw [mem_allChars]; omega
  induction hf with
  | nil => exact ⟨by simp [admSets, extractAdm, Sq.looks], by simp [admSets, extractAdm, Sorted], by simp [Sq.looks]⟩
  | dollar => simp only [admSets, admSet, extractAdm_one, ite_self]; exact eol
  | dollar' => simp only [admSets, admSet, extractAdm_one]; exact eol
  | once hp ha hf ih =>
    simp only [admSets, extractAdm_one, admSet, ha.size, Nat.one_ne_zero, if_false]
    exact looks_simple hp ha
  | last hp ha => simp only [admSets, extractAdm_one]; exact looks_simple hp ha
  | @exact n a m s cs d md hp ha hf hd ih =>
    simp only [admSets, extractAdm_one, admSet]
    refine ⟨fun x => ?_, ha.sorted, fun x hx => ?_⟩
    · rw [ha.adm, looks_atom hp]; simp [Quant.lo]; omega
    · refine ha.char x ?_
      rw [looks_atom hp] at hx; simp [Quant.lo] at hx
      rcases hx with hx | hx
      · exact hx
      · omega
  | possessive hp ha hf h1 h2 ih => simp only [admSets, extractAdm_one, admSet]; exact looks_loop hp ha ih
  | greedy hp ha hf h1 h2 h3 ih => simp only [admSets, extractAdm_one, admSet]; exact looks_loop hp ha ih
  | lazy hp ha hf h1 h2 h3 ih => simp only [admSets, extractAdm_one, admSet]; exact looks_loop hp ha ih
  | cap hw hf hb _ ih => simp only [admSets, extractAdm_one, admSet]; exact looks_group (whole_shows hw hb)
  | capLoop hl hf h1 h2 ih => simp only [admSets, extractAdm_one, admSet]; exact looks_group (as := .last false (.cons _ _ (.nil false))) (loop_shows hl)
  | non hw hf hb ih =>
    simp only [admSets, extractAdm_one, admSet, if_neg (whole_size hw hb)]; exact looks_group (whole_shows hw hb)
  | nonLast hw hb => simp only [admSets, extractAdm_one]; exact looks_group (whole_shows hw hb)
  | repPoss hi hf hk hb ih => simp only [admSets, extractAdm_one, admSet]; exact looks_rep hi hb ih
  | repGreedy h0 hi hf hk hm hb ih => simp only [admSets, extractAdm_one, admSet]; exact looks_rep hi hb ih
  | @repExact n c as m d md s cs hi hf hd hb ih =>
    have := looks_rep hi hb ih
    rw [if_neg (by simp [Quant.lo]; omega)] at this
    simpa only [admSets, extractAdm_one, admSet] using this

/-! ## optimizing -/

mutual
theorem opt_inj_single : ∀ (t : Node), single t = true → ∀ inj, opt t inj = opt t []
  | .exact .., _, _ | .range .., _, _ | .word, _, _ | .any, _, _ => by simp [opt]
  | .simple m [], h, inj => by
    simp only [single, Bool.and_eq_true] at h
    simp only [opt]; exact opt_inj_single m h.1 inj
  | .simple m (c :: cs), h, _ => by simp [single] at h
  | .alt [], h, _ => by simp [single] at h
  | .alt [c], h, inj => by
    simp only [single, singles, Bool.and_eq_true] at h
    simp only [opt]; exact opt_inj_single c h.2.1 inj
  | .alt (c :: d :: cs), _, _ => by simp [opt]
  | .space, h, _ | .bos, h, _ | .eol, h, _ | .negated _, h, _ | .greedy .., h, _ | .lazy .., h, _ | .possessive .., h, _ | .repeated .., h, _
  | .group .., h, _ => by simp [single] at h
end

theorem opt_inj_skipping : ∀ (t : Node), skipping t = true → ∀ inj, opt t inj = opt t []
  | .space, _, _ | .negated _, _, _ => by simp [opt]
  | .simple m [], h, inj => by
    simp only [skipping, Bool.and_eq_true] at h
    simp only [opt]; exact opt_inj_skipping m h.1 inj
  | .simple m (c :: cs), h, _ => by simp [skipping] at h
  | .alt [], h, _ => by simp [skipping, skippings] at h
  | .alt [c], h, inj => by
    simp only [skipping, skippings] at h
    simp only [opt]; exact opt_inj_skipping c h inj
  | .alt (c :: d :: cs), _, _ => by simp [opt]
  | .exact .., h, _ | .range .., h, _ | .word, h, _ | .any, h, _ | .bos, h, _ | .eol, h, _ | .greedy .., h, _ | .lazy .., h, _
  | .possessive .., h, _ | .repeated .., h, _ | .group .., h, _ => by simp [skipping] at h

theorem Atomic.opt_inj {a : Atom} {m : Node} (h : Atomic a m) (inj : List (List Int)) : ERegex.opt m inj = ERegex.opt m [] := by
  have := h.one
  simp only [oneCh, Bool.or_eq_true] at this
  rcases this with h | h
  · exact opt_inj_single m h inj
  · exact opt_inj_skipping m h inj

theorem mem_extract_append (x : Int) : ∀ (a b : List (List Int)), x ∈ extractAdm (a ++ b) ↔ x ∈ extractAdm a ∨ x ∈ extractAdm b
  | [], b => by simp [extractAdm]
  | c :: a, b => by
    simp only [List.cons_append, extractAdm, mem_mergeSets, mem_extract_append x a b, or_assoc]

theorem sorted_extract_append : ∀ (a b : List (List Int)), (∀ c ∈ a, Sorted c) → Sorted (extractAdm b) → Sorted (extractAdm (a ++ b))
  | [], b, _, h => h
  | c :: a, b, ha, h => by
    simp only [List.cons_append, extractAdm]
    exact sorted_mergeSets (ha c (by simp)) (sorted_extract_append a b (fun d hd => ha d (by simp [hd])) h)

/-- The optimizer, with what follows the group in view, treats the first piece of the group as it would without. -/
theorem head_opt {f : Bool} {s b : Sq} {t : Node} {inj : List (List Int)} (hf : Fits f b [t]) (hr : b.regular = true) (hh : headStill s b = true)
    (hl : Looks s (extractAdm inj)) : Fits true b [opt t inj] := by
  have h0 := opt_fits hf hr
  simp only [opts] at h0
  -- the sets involved
  have both : ∀ {b' : Sq} {cs' : List Node}, Fits f b' cs' → b'.regular = true →
      (∀ x, x ∈ extractAdm (admSets cs' ++ inj) ↔ b'.shown x = true ∨ s.looks x = true) ∧ Sorted (extractAdm (admSets cs' ++ inj)) := by
    intro b' cs' hf' hr'
    have hs := fits_shows hf' hr'
    refine ⟨fun x => by rw [mem_extract_append, hs.adm, hl.adm], sorted_extract_append _ _ ?_ hl.sorted⟩
    intro c hc
    by_cases hcs : cs' = []
    · subst hcs; simp [admSets] at hc
    · obtain ⟨d, rfl⟩ := fits_one hf' hcs
      simp only [admSets, List.mem_singleton] at hc
      subst hc
      have := hs.sorted
      simpa only [admSets, extractAdm_one] using this
  generalize hcs : [t] = cs at hf
  cases hf with
  | nil => simp at hcs
  | dollar => cases hcs; exact .dollar' _
  | dollar' => cases hcs; exact .dollar' _
  | @once a m s' cs' ha hf' =>
    cases hcs
    cases cs' with
    | nil => simpa only [opt, ha.opt_inj inj] using h0
    | cons c cs' => simpa only [opt, ha.opt_inj inj] using h0
  | last ha => cases hcs; rw [ha.opt_inj inj]; exact h0
  | exact ha hf' => cases hcs; simpa only [opt] using h0
  | possessive ha hf' h1 h2 => cases hcs; simpa only [opt] using h0
  | @greedy a m k s' cs' ha hf' h1 h2 h3 =>
    cases hcs
    simp only [Sq.regular, Bool.and_eq_true] at hr
    simp only [headStill, h1, h2, Bool.false_or, Bool.not_eq_true'] at hh
    obtain ⟨hb, hso⟩ := both hf' hr.2
    have hno : (intersectSets (admSet m) (extractAdm (admSets cs' ++ inj))).isEmpty = true := by
      cases he : (intersectSets (admSet m) (extractAdm (admSets cs' ++ inj))).isEmpty with
      | true => rfl
      | false =>
        obtain ⟨x, hx1, hx2⟩ := (isEmpty_inter ha.sorted hso).1 he
        have : meets a.shown (fun x => s'.shown x || s.looks x) = true :=
          (meets_iff _ _).2 ⟨x, ha.char x ((ha.adm x).1 hx1), (ha.adm x).1 hx1, by simpa using (hb x).1 hx2⟩
        rw [hh] at this; cases this
    have hk : keeps a k s' = false := by
      cases hk : keeps a k s' with
      | false => rfl
      | true =>
        simp only [keeps, h2, meets_iff] at hk
        obtain ⟨x, hx1, hx2, hx3⟩ := hk
        have : meets a.shown (fun x => s'.shown x || s.looks x) = true := (meets_iff _ _).2 ⟨x, hx1, hx2, by simp [hx3]⟩
        rw [hh] at this; cases this
    simp only [opt, hno, if_true]
    exact .possessive ha.opt (opt_fits hf' hr.2) h1 hk
  | @lazy a m k s' cs' ha hf' h1 h2 h3 =>
    cases hcs
    simp only [Sq.regular, Bool.and_eq_true] at hr
    simp only [headStill, h1, h2, Bool.false_or, Bool.not_eq_true'] at hh
    obtain ⟨hb, hso⟩ := both hf' hr.2
    have hsl := shows_loop (k := k) ha (fits_shows hf' hr.2)
    have hno : (intersectSets (admSet (.lazy m k.lo k.hiN cs')) (extractAdm (admSets cs' ++ inj))).isEmpty = true := by
      cases he : (intersectSets (admSet (.lazy m k.lo k.hiN cs')) (extractAdm (admSets cs' ++ inj))).isEmpty with
      | true => rfl
      | false =>
        obtain ⟨x, hx1, hx2⟩ := (isEmpty_inter (by simpa only [admSet] using hsl.sorted) hso).1 he
        simp only [admSet, hsl.adm] at hx1
        have : meets (fun x => a.shown x || (k.lo == 0 && s'.shown x)) (fun x => s'.shown x || s.looks x) = true :=
          (meets_iff _ _).2 ⟨x, hsl.char x hx1, hx1, by simpa using (hb x).1 hx2⟩
        rw [hh] at this; cases this
    have hk : keeps a k s' = false := by
      cases hk : keeps a k s' with
      | false => rfl
      | true =>
        have : meets (fun x => a.shown x || (k.lo == 0 && s'.shown x)) (fun x => s'.shown x || s.looks x) = true := by
          simp only [keeps, h2, Bool.or_eq_true, Bool.and_eq_true, meets_iff] at hk
          rcases hk with ⟨x, hx1, hx2, hx3⟩ | ⟨h0, x, hx1, hx2, hx3⟩
          · exact (meets_iff _ _).2 ⟨x, hx1, by simp [hx2], by simp [hx3]⟩
          · exact (meets_iff _ _).2 ⟨x, hx1, by simp [hx2, h0], by simp [hx3]⟩
        rw [hh] at this; cases this
    simp only [opt, hno, if_true]
    exact .possessive ha.opt (opt_fits hf' hr.2) h1 hk

theorem body_opt {f : Bool} {as : Alts} {s : Sq} {m : Node} {inj : List (List Int)} (h : Whole f as.bodies m) (hb : bodyOk true as s = true)
    (hl : Looks s (extractAdm inj)) : Whole true as.bodies (opt m inj) := by
  have hF := body_facts hb
  have one : ∀ {hat b}, as = .last hat b → ∀ {t}, Top f (hat, b) t → Top true (hat, b) (opt t inj) := by
    intro hat b e t ht
    subst e
    have h1 := hF.hat _ (by simp [Alts.bodies]; rfl)
    have h2 := hF.regular _ (by simp [Alts.bodies]; rfl)
    simp only [bodyOk, Bool.and_eq_true] at hb
    cases ht with
    | hat => simp at h1
    | plain hf => exact .plain (head_opt hf h2 (by simpa using hb.2) hl)
  cases as with
  | last hat b =>
    cases h with
    | one ht => exact .one (one rfl ht)
    | alt ht =>
      cases ht with
      | cons h1 h2 => cases h2; simp only [opt]; exact .one (one rfl h1)
  | more hat b as' =>
    obtain ⟨hat', xs, e⟩ := bodies_head as'
    have hr := hF.regular
    have hr' := hr
    simp only [Alts.bodies] at h hr ⊢
    rw [e] at h hr ⊢
    cases h with
    | alt ht =>
      cases ht with
      | cons h1 h2 =>
        cases h2 with
        | cons h3 h4 =>
          have := tops_opt (.cons h1 (.cons h3 h4)) hr
          simpa only [opt, opts] using Whole.alt this

theorem loop_opt {f : Bool} {a : Atom} {k : Quant} {s : Sq} {m : Node} {inj : List (List Int)} (h : Loop f a k s m)
    (hl : Looks s (extractAdm inj)) : Loop true a k s (opt m inj) := by
  have key : ∀ {m : Node}, Atomic a m → ((intersectSets (admSet m) (extractAdm inj)).isEmpty = false ↔ meets a.shown s.looks = true) := by
    intro m ha
    rw [isEmpty_inter ha.sorted hl.sorted]
    simp only [meets_iff, ha.adm, hl.adm]
    exact ⟨fun ⟨x, h1, h2⟩ => ⟨x, ha.char x h1, h1, h2⟩, fun ⟨x, _, h1, h2⟩ => ⟨x, h1, h2⟩⟩
  induction h with
  | possessive ha h1 => simp only [opt, opts]; exact .possessive ha.opt h1
  | @greedy m ha h1 h2 =>
    simp only [opt, opts]
    have hk := key ha
    split
    · rename_i he
      simp only [admSets, List.nil_append, admSet, extractAdm_one, ite_self] at he
      rw [he] at hk
      refine .possessive ha.opt (fun _ => ?_)
      cases hm : meets a.shown s.looks with
      | false => rfl
      | true => exact absurd (hk.2 hm) (by simp)
    · rename_i he
      simp only [admSets, List.nil_append, admSet, extractAdm_one, ite_self] at he
      exact .greedy ha.opt h1 (fun _ => hk.1 (by simpa using he))
  | @lazy m ha h1 h2 =>
    have hk := key ha
    simp only [opt, opts]
    split
    · rename_i he
      simp only [admSets, List.nil_append, admSet, extractAdm_one, ite_self] at he
      rw [he] at hk
      refine .possessive ha.opt (fun _ => ?_)
      cases hm : meets a.shown s.looks with
      | false => rfl
      | true => exact absurd (hk.2 hm) (by simp)
    · rename_i he
      simp only [admSets, List.nil_append, admSet, extractAdm_one, ite_self] at he
      exact .lazy ha.opt h1 (fun _ => hk.1 (by simpa using he))
  | wrap _ ih => simp only [opt]; exact ih

theorem opt_fitsC {f : Bool} {n : Nat} {s : Sq} {cs : List Node} (hf : FitsC f n s cs) : FitsC true n s (opts cs) := by
  induction hf with
  | nil => exact .nil _ _
  | dollar => exact .dollar' _ _
  | dollar' => exact .dollar' _ _
  | @once n a m s cs hp ha hf ih =>
    cases cs with
    | nil => cases hf; exact .last hp ha.opt
    | cons c cs => exact .once hp ha.opt ih
  | last hp ha => exact .last hp ha.opt
  | exact hp ha hf hd ih => exact .exact hp ha.opt ih hd
  | possessive hp ha hf h1 h2 ih => exact .possessive hp ha.opt ih h1 h2
  | @greedy n a m k s cs hp ha hf h1 h2 h3 ih =>
    have hs := fitsC_looks hf
    have key : (intersectSets (admSet m) (extractAdm (admSets cs ++ []))).isEmpty = false ↔ clings a k s = true := by
      rw [List.append_nil, isEmpty_inter ha.sorted hs.sorted]
      simp only [clings, h2, meets_iff, ha.adm, hs.adm]
      exact ⟨fun ⟨x, h1, h2⟩ => ⟨x, ha.char x h1, h1, h2⟩, fun ⟨x, _, h1, h2⟩ => ⟨x, h1, h2⟩⟩
    simp only [opts, opt]
    split
    · rename_i he
      refine .possessive hp ha.opt ih h1 ?_
      cases hk : clings a k s with
      | false => rfl
      | true => rw [key.2 hk] at he; simp at he
    · rename_i he
      exact .greedy hp ha.opt ih h1 h2 (fun _ => key.1 (by simpa using he))
  | @lazy n a m k s cs hp ha hf h1 h2 h3 ih =>
    have hs := fitsC_looks hf
    have hl := looks_loop (k := k) hp ha hs
    have key : (intersectSets (admSet (.lazy m k.lo k.hiN cs)) (extractAdm (admSets cs ++ []))).isEmpty = false ↔ clings a k s = true := by
      rw [List.append_nil, isEmpty_inter (by simpa only [admSet] using hl.sorted) hs.sorted]
      simp only [clings, h2, Bool.or_eq_true, Bool.and_eq_true, meets_iff, admSet, hl.adm, hs.adm, looks_atom hp]
      constructor
      · rintro ⟨x, hx1 | ⟨hx1, hx2⟩, hx3⟩
        · exact Or.inl ⟨x, ha.char x hx1, hx1, hx3⟩
        · exact Or.inr ⟨hx1, x, hs.char x hx3, hx3, hx3⟩
      · rintro (⟨x, _, h1, h2⟩ | ⟨h0, x, _, h1, _⟩)
        · exact ⟨x, Or.inl h1, h2⟩
        · exact ⟨x, Or.inr ⟨h0, h1⟩, h1⟩
    simp only [opts, opt]
    split
    · rename_i he
      refine .possessive hp ha.opt ih h1 ?_
      cases hk : clings a k s with
      | false => rfl
      | true => rw [key.2 hk] at he; simp at he
    · rename_i he
      exact .lazy hp ha.opt ih h1 h2 (fun _ => key.1 (by simpa using he))
  | cap hw hf hb hx ih =>
    simp only [opts, opt, List.append_nil]
    exact .cap (body_opt hw hb (fitsC_looks hf)) ih hb hx
  | capLoop hl hf h1 h2 ih =>
    simp only [opts, opt, List.append_nil]
    exact .capLoop (loop_opt hl (fitsC_looks hf)) ih h1 h2
  | @non n as m s cs hw hf hb ih =>
    have := whole_opt hw (body_facts hb).regular
    cases cs with
    | nil => cases hf; simp only [opts, opt]; exact .nonLast this hb
    | cons c cs => simpa only [opts, opt] using FitsC.non this ih hb
  | nonLast hw hb =>
    simp only [opts]
    exact .nonLast (whole_opt hw (body_facts hb).regular) hb
  | repPoss hi hf hk hb ih => exact .repPoss (inner_opt hi hb) ih hk hb
  | @repGreedy n c as m k s cs h0 hi hf hk hm hb ih =>
    have hs := fitsC_looks hf
    have hsh := inner_shows hi hb
    have hno : (intersectSets (admSet m) (extractAdm (admSets cs ++ []))).isEmpty = true := by
      cases he : (intersectSets (admSet m) (extractAdm (admSets cs ++ []))).isEmpty with
      | true => rfl
      | false =>
        rw [List.append_nil, isEmpty_inter hsh.sorted hs.sorted] at he
        obtain ⟨x, hx1, hx2⟩ := he
        have hmt : meets as.head.shown s.looks = true :=
          (meets_iff _ _).2 ⟨x, hsh.char x ((hsh.adm x).1 hx1), (hsh.adm x).1 hx1, (hs.adm x).1 hx2⟩
        simp [repOk, hm, hk, hmt] at hb
    simp only [opts, opt, hno, if_true]
    exact .repPoss (inner_opt hi hb) ih hk hb
  | repExact hi hf hd hb ih => exact .repExact (inner_opt hi hb) ih hd hb

/-! ## building -/

/-- A character class. -/
def isCls : Atom → Bool
  | .cls .. => true
  | _ => false

theorem atom_flag (a : Atom) (h : a.ok = true) (hs : Plain a) {n : Node} {b : Bool}
    (hcl : classify false (a.toks ++ []) = .node (.simple n []) b []) : b = isCls a := by
  cases a with
  | chr c =>
    have := classify_plain false c h []
    rw [show ([c] :: [] : List Tok) = (Atom.chr c).toks ++ [] from rfl, hcl] at this
    simp at this; simp [isCls, this]
  | esc c =>
    obtain ⟨t, ht, _⟩ := terminalOf_esc c h
    have := classify_esc false c h [] ht
    rw [show ([92, c] :: [] : List Tok) = (Atom.esc c).toks ++ [] from rfl, hcl] at this
    simp at this; simp [isCls, this]
  | dot =>
    have := classify_dot false []
    rw [show ([46] :: [] : List Tok) = (Atom.dot).toks ++ [] from rfl, hcl] at this
    simp at this; simp [isCls, this]
  | hex x y =>
    simp only [Atom.ok, Bool.and_eq_true] at h
    have := classify_hex false x y h.1 h.2 []
    erw [hcl] at this
    simp at this; simp [isCls, this]
  | oct x y z =>
    simp only [Atom.ok, Bool.and_eq_true] at h
    have := classify_oct false x y z h.1.1 h.1.2 h.2 []
    erw [hcl] at this
    simp at this; simp [isCls, this]
  | group c as => simp [Plain, Atom.steady, Atom.skips] at hs
  | cls neg items dash =>
    simp only [Atom.ok, Bool.and_eq_true] at h
    obtain ⟨n', h1, h2⟩ := classNode_ok items dash h.1 h.2
    have hx := fun rest => extract_wellNested .square (wellNested_noBrackets (items_noBracket items dash h.1)) rest
    simp only [isCls]
    cases neg with
    | false =>
      simp only [Atom.toks, hatToks, List.cons_append] at hcl
      rw [classify_class, show (((if false = true then [[94]] else []) ++ (items.flatMap Item.toks ++ dashToks dash) ++ [[93]]) ++ []) =
        (items.flatMap Item.toks ++ dashToks dash) ++ [93] :: [] by simp, hx] at hcl
      · simp only [h1] at hcl; simp at hcl; exact hcl.2
      · intro tl e
        cases items with
        | nil => cases dash <;> simp [dashToks] at e
        | cons i items =>
          simp only [List.all_cons, Bool.and_eq_true] at h
          have := h.1.1
          cases i <;> simp [Item.toks, Item.ok, classB] at e this
          · omega
          · omega
    | true =>
      simp only [Atom.toks, hatToks, List.cons_append] at hcl
      rw [show ((if True then [[94]] else []) ++ (items.flatMap Item.toks ++ dashToks dash) ++ [[93]]) ++ [] =
        [94] :: ((items.flatMap Item.toks ++ dashToks dash) ++ [93] :: []) by simp, classify_negclass, hx] at hcl
      simp only [h1] at hcl; simp at hcl; exact hcl.2

/-- The index of the next group after an atom. -/
theorem atom_next {a : Atom} {m : Node} (ha : Atomic a m) : nextIdx (.simple m []) = 0 := by
  have := nextIdx_le (.simple m []) 0 (by simp [slots, slotss, ha.noslot])
  omega

theorem tidy_atom {a : Atom} (hp : Plain a) (k : Quant) (s : Sq) (g n : Nat) :
    (Sq.cons a k s).tidy g n = s.tidy (if isCls a then 0 else g) n := by
  cases a <;> first | rfl | simp [Plain, Atom.steady, Atom.skips] at hp

theorem fitsC_hang {n : Nat} {a : Atom} {m : Node} (hp : Plain a) (ha : Atomic a m) (k : Quant) (hk : k.sane = true) {s : Sq} {cs : List Node}
    (hf : FitsC false n s cs) : FitsC false n (.cons a k s) [hang k m cs] := by
  have gen : k.fixed = false → FitsC false n (.cons a k s) [match k.mode with
    | .greedy => .greedy (.simple m []) k.lo k.hiN cs
    | .lazy => .lazy (.simple m []) k.lo k.hiN cs
    | .possessive => .possessive (.simple m []) k.lo k.hiN cs] := by
    intro hk
    cases hm : k.mode with
    | greedy => exact .greedy hp ha.wrap hf hk hm (by simp)
    | lazy => exact .lazy hp ha.wrap hf hk hm (by simp)
    | possessive => exact .possessive hp ha.wrap hf hk (by simp [clings, hm])
  cases k with
  | once => exact .once hp ha hf
  | exact d md =>
    refine .exact hp ha.wrap hf ?_
    simp only [Quant.sane, Quant.hi, Bool.and_eq_true, decide_eq_true_eq] at hk
    exact hk.2.2
  | star md => exact gen rfl
  | plus md => exact gen rfl
  | opt md => exact gen rfl
  | atLeast d md => exact gen rfl
  | between d e md => exact gen rfl

theorem fitsC_hangN {n : Nat} {c : Bool} {as : Alts} {m : Node} (hi : Inner false n as c m) {k : Quant} (hk : k ≠ .once) {s : Sq} {cs : List Node}
    (hf : FitsC false (n + c.toNat) s cs) (hb : repOk c as k s = true) : FitsC false n (.cons (.group c as) k s) [hangN k m cs] := by
  have gen : k.fixed = false → FitsC false n (.cons (.group c as) k s) [match k.mode with
    | .greedy => .greedy m k.lo k.hiN cs
    | .lazy => .lazy m k.lo k.hiN cs
    | .possessive => .possessive m k.lo k.hiN cs] := by
    intro hk
    cases hm : k.mode with
    | greedy => exact .repGreedy rfl hi hf hk hm hb
    | lazy => simp [repOk, hm, hk] at hb
    | possessive => exact .repPoss hi hf hk hb
  cases k with
  | once => exact absurd rfl hk
  | exact d md =>
    have hsane := rep_sane hb
    refine .repExact hi hf ?_ hb
    simp only [Quant.sane, Quant.hi, Bool.and_eq_true, decide_eq_true_eq] at hsane
    exact hsane.2.2
  | star md => exact gen rfl
  | plus md => exact gen rfl
  | opt md => exact gen rfl
  | atLeast d md => exact gen rfl
  | between d e md => exact gen rfl

theorem tops_all (gi : Nat) : ∀ (xs : List (Bool × Sq)), (∀ x ∈ xs, x.2.regular = true ∧ x.2.empty = false ∧ ∀ c ∈ x.2.spell, c ∈ allChars) →
    ∃ ts, Tops false xs ts ∧ buildAll (fun b => H none b gi) (xs.map (fun x => hatToks x.1 ++ x.2.toks)) = some ts
  | [], _ => ⟨[], .nil, by simp [buildAll]⟩
  | x :: xs, h => by
    obtain ⟨h1, h2, h3⟩ := h x (by simp)
    obtain ⟨t, h4, h5⟩ := top_build h1 h2 h3 gi
    obtain ⟨ts, h6, h7⟩ := tops_all gi xs (fun y hy => h y (by simp [hy]))
    exact ⟨t :: ts, .cons h4 h6, by simp [buildAll, h5, h7]⟩

/-- Reading a capturing group. -/
theorem capture_step {as : Alts} (h0 : as.ok = true) {gi : Nat} {ns : List Node}
    (hb : buildAll (fun b => H none b (gi + 1)) (as.bodies.map (fun x => hatToks x.1 ++ x.2.toks)) = some ns) (last : Option Node) (rest : List Tok) :
    H last ((Atom.group true as).toks ++ rest) gi = (H (some (.group (.alt ns) gi [])) rest (gi + 1)).bind (addChild last) := by
  have ht := topFree_alts as h0
  have hw : WellNested as.toks := by
    rw [toks_join]; exact wellNested_join _ (by simpa using fun a b hab => ht (a, b) hab)
  have hs : splitT 124 as.toks = as.parts.map Prod.fst := by rw [toks_join]; exact splitT_parts _ (parts_ne as) ht
  have hx := extract_wellNested .round hw rest
  rw [H_capture (c := as.toks) (rest := rest)]
  · rw [hs, parts_bodies, hb]; rfl
  · simp only [Atom.toks, List.cons_append]
    rw [show ((if True then [] else [[63], [58]]) ++ (as.toks ++ [[41]])) ++ rest = as.toks ++ [41] :: rest by simp,
      classify_capture, hx]
    intro tl e
    cases hh : as.toks with
    | nil => rw [hh] at e; simp at e
    | cons x xs =>
      rw [hh] at e; simp at e
      exact (Alts.head_quant as h0 x xs hh).1 e.1

theorem noncapture_step {as : Alts} (h0 : as.ok = true) {gi : Nat} {ns : List Node}
    (hb : buildAll (fun b => H none b gi) (as.bodies.map (fun x => hatToks x.1 ++ x.2.toks)) = some ns) (last : Option Node) (rest : List Tok) :
    H last ((Atom.group false as).toks ++ rest) gi = (H (some (.simple (.alt ns) [])) rest (nextIdxs ns)).bind (addChild last) := by
  have ht := topFree_alts as h0
  have hw : WellNested as.toks := by
    rw [toks_join]; exact wellNested_join _ (by simpa using fun a b hab => ht (a, b) hab)
  have hs : splitT 124 as.toks = as.parts.map Prod.fst := by rw [toks_join]; exact splitT_parts _ (parts_ne as) ht
  have hx := extract_wellNested .round hw rest
  rw [H_noncapture (c := as.toks) (rest := rest)]
  · rw [hs, parts_bodies, hb]; rfl
  · simp only [Atom.toks, List.cons_append]
    rw [show ((if false = true then [] else [[63], [58]]) ++ (as.toks ++ [[41]])) ++ rest = [63] :: [58] :: (as.toks ++ [41] :: rest) by simp,
      classify_noncapture, hx]

theorem body_alts_ok {capture : Bool} {as : Alts} {s : Sq} (h : bodyOk capture as s = true) : as.ok = true := by
  have hF := body_facts h
  exact bodies_alts_ok as (fun x hx => ⟨hF.regular x hx, hF.empty x hx⟩)

theorem loop_alts_ok {a : Atom} {k : Quant} {s : Sq} (h : loopOk a k s = true) : (Alts.last false (.cons a k (.nil false))).ok = true := by
  simp only [loopOk, Bool.and_eq_true, Quant.sane] at h
  simp [Alts.ok, Sq.ok, h.1.1.1, h.1.2.1, Sq.empty]

theorem group_alts_ok {capture : Bool} {as : Alts} {s : Sq} (h : groupOk capture as s = true) : as.ok = true := by
  rcases group_cases h with ⟨h, _⟩ | ⟨a, k, rfl, rfl, _, h⟩
  · exact body_alts_ok h
  · exact loop_alts_ok h

theorem capOk_atom {a : Atom} (hp : Plain a) (k : Quant) (s : Sq) :
    (Sq.cons a k s).capOk = (a.ok && (a.steady || a.skips) && k.sane && atomOk a k s && s.capOk) := by
  cases a <;> first | rfl | simp [Plain, Atom.steady, Atom.skips] at hp

/-- The pieces of a sequence that meets the condition. -/
theorem capOk_cases {a : Atom} {k : Quant} {s : Sq} (h : (Sq.cons a k s).capOk = true) :
    (Plain a ∧ a.ok = true ∧ k.sane = true ∧ atomOk a k s = true ∧ s.capOk = true) ∨
    (∃ c as, a = .group c as ∧ k = .once ∧ groupOk c as s = true ∧ s.capOk = true) ∨
    ∃ c as, a = .group c as ∧ k ≠ .once ∧ repOk c as k s = true ∧ s.capOk = true := by
  by_cases hp : Plain a
  · rw [capOk_atom hp] at h
    simp only [Bool.and_eq_true] at h
    exact Or.inl ⟨hp, h.1.1.1.1, h.1.1.2, h.1.2, h.2⟩
  · cases a with
    | group c as =>
      right
      cases k with
      | once => simp only [Sq.capOk, Bool.and_eq_true] at h; exact Or.inl ⟨c, as, rfl, rfl, h⟩
      | star | plus | opt | exact | atLeast | between =>
        simp only [Sq.capOk, Bool.and_eq_true] at h
        exact Or.inr ⟨c, as, rfl, by simp, h⟩
    | _ => simp only [Sq.capOk, Bool.and_eq_true] at h; exact absurd h.1.1.1.2 hp

theorem capOk_ok : ∀ (s : Sq), s.capOk = true → s.ok = true
  | .nil _, _ => rfl
  | .cons a k s, h => by
    rcases capOk_cases h with ⟨_, h1, h2, _, h4⟩ | ⟨c, as, rfl, rfl, h1, h2⟩ | ⟨c, as, rfl, hk, h1, h2⟩
    · simp only [Quant.sane, Bool.and_eq_true] at h2
      simp [Sq.ok, h1, h2.1, capOk_ok s h4]
    · simp [Sq.ok, Atom.ok, Quant.ok, group_alts_ok h1, capOk_ok s h2]
    · have := rep_sane h1
      simp only [Quant.sane, Bool.and_eq_true] at this
      simp [Sq.ok, Atom.ok, this.1, body_alts_ok (rep_body h1), capOk_ok s h2]

theorem tops_slots {f : Bool} {xs : List (Bool × Sq)} {ts : List Node} (h : Tops f xs ts) : slotss ts = [] := by
  have := (tops_safe h true (fun _ _ _ => rfl)).2
  exact this

theorem loop_build {a : Atom} {k : Quant} {s : Sq} (h : loopOk a k s = true) (hk : k.fixed = false) (hc : ∀ x ∈ a.spell, x ∈ allChars) (gi : Nat) :
    ∃ t, Loop false a k s t ∧ H none (hatToks false ++ (Sq.cons a k (.nil false)).toks) gi = some t := by
  simp only [loopOk, Bool.and_eq_true, Quant.sane] at h
  obtain ⟨n, b, hn, hcl⟩ := atom_node a h.1.1.1 h.1.1.2 hc
  refine ⟨hang k n [], ?_, ?_⟩
  · have gen : Loop false a k s (match k.mode with
      | .greedy => .greedy (.simple n []) k.lo k.hiN []
      | .lazy => .lazy (.simple n []) k.lo k.hiN []
      | .possessive => .possessive (.simple n []) k.lo k.hiN []) := by
      cases hm : k.mode with
      | greedy => exact .greedy hn.wrap hm (by simp)
      | lazy => exact .lazy hn.wrap hm (by simp)
      | possessive => exact .possessive hn.wrap (by simp [hm])
    cases k with
    | once => simp [Quant.fixed] at hk
    | exact d md => simp [Quant.fixed] at hk
    | star md => exact gen
    | plus md => exact gen
    | opt md => exact gen
    | atLeast d md => exact gen
    | between d e md => exact gen
  · simp only [hatToks, Bool.false_eq_true, if_false, List.nil_append, Sq.toks]
    rw [H_node (hcl _ _), quant_hang k h.1.2.1 (rest := []) (by simp), H_nil]; rfl

theorem seq_tree : ∀ (s : Sq), s.capOk = true → (∀ x ∈ s.spell, x ∈ allChars) → ∀ (n gi : Nat), s.tidy gi n = true →
    (∀ (h : List Node → Node), (∀ c, addChild (some (h [])) c = some (h [c])) →
      ∃ cs, FitsC false n s cs ∧ H (some (h [])) s.toks gi = some (h cs)) ∧
    (s.empty = false → ∃ t, FitsC false n s [t] ∧ H none s.toks gi = some t)
  | .nil false, _, _, n, gi, _ => ⟨fun h hh => ⟨[], .nil _ _, H_nil _ _⟩, fun he => by simp [Sq.empty] at he⟩
  | .nil true, _, _, n, gi, _ => by
    refine ⟨fun h hh => ⟨[.simple .eol []], .dollar _ _, ?_⟩, fun _ => ⟨.simple .eol [], .dollar _ _, ?_⟩⟩
    · rw [show (Sq.nil true).toks = [[36]] from rfl, H_dollar, hh]
    · rw [show (Sq.nil true).toks = [[36]] from rfl, H_dollar]; rfl
  | .cons a k s, h, hc, n, gi, ht => by
    have hok := capOk_ok _ h
    simp only [Sq.ok, Bool.and_eq_true] at hok
    simp only [Sq.spell, List.mem_append] at hc
    -- the piece becomes a node to which the rest is appended
    have main : ∃ (g : List Node → Node) (n' gi' : Nat), (∀ c, addChild (some (g [])) c = some (g [c])) ∧ s.tidy gi' n' = true ∧
        (∀ cs, FitsC false n' s cs → FitsC false n (.cons a k s) [g cs]) ∧
        ∀ last, H last (Sq.cons a k s).toks gi = (H (some (g [])) s.toks gi').bind (addChild last) := by
      rcases capOk_cases h with ⟨hp, h1, h2, h3, h4⟩ | ⟨c, as, rfl, rfl, h1, h2⟩ | ⟨c, as, rfl, hk, h3, h2⟩
      · obtain ⟨m, b, hn, hcl⟩ := atom_node a h1 hp (fun x hx => hc x (Or.inl (Or.inl hx)))
        have hb := atom_flag a h1 hp (hcl false [])
        subst hb
        refine ⟨hang k m, n, if isCls a then 0 else gi, hang_child k m, by rw [← tidy_atom hp k]; exact ht, fun cs hf => fitsC_hang hp hn k h2 hf, fun last => ?_⟩
        simp only [Sq.toks]
        rw [H_node (hcl _ _), quant_hang k hok.1.2 (Sq.head_quant s hok.2), atom_next hn]
      · have hsp : ∀ x ∈ as.spell, x ∈ allChars := fun x hx => hc x (Or.inl (Or.inl (by simp [Atom.spell, hx])))
        rcases group_cases h1 with ⟨h3, hfx⟩ | ⟨a, k, rfl, rfl, hk, h3⟩
        · have hF := body_facts h3
          cases c with
          | true =>
            simp only [Sq.tidy, Bool.and_eq_true, beq_iff_eq] at ht
            obtain ⟨rfl, ht⟩ := ht
            obtain ⟨ns, h4, h5⟩ := tops_all (gi + 1) as.bodies (fun x hx => ⟨hF.regular x hx, hF.empty x hx, bodies_spell as hsp x hx⟩)
            refine ⟨.group (.alt ns) gi, gi + 1, gi + 1, fun c => rfl, ht, fun cs hf => .cap (.alt h4) hf h3 (hfx rfl), fun last => ?_⟩
            simp only [Sq.toks, Quant.toks, List.nil_append]
            exact capture_step (body_alts_ok h3) h5 last _
          | false =>
            simp only [Sq.tidy] at ht
            obtain ⟨ns, h4, h5⟩ := tops_all gi as.bodies (fun x hx => ⟨hF.regular x hx, hF.empty x hx, bodies_spell as hsp x hx⟩)
            refine ⟨.simple (.alt ns), n, 0, fun c => rfl, ht, fun cs hf => .non (.alt h4) hf h3, fun last => ?_⟩
            simp only [Sq.toks, Quant.toks, List.nil_append]
            rw [noncapture_step (body_alts_ok h3) h5 last _]
            have := nextIdxs_le ns 0 (by simp [tops_slots h4])
            rw [show nextIdxs ns = 0 by omega]
        · simp only [Sq.tidy, Bool.and_eq_true, beq_iff_eq] at ht
          obtain ⟨rfl, ht⟩ := ht
          obtain ⟨t, h4, h5⟩ := loop_build h3 hk (fun x hx => hsp x (by simp [Alts.spell, Sq.spell, hx])) (gi + 1)
          refine ⟨.group (.alt [t]) gi, gi + 1, gi + 1, fun c => rfl, ht, fun cs hf => .capLoop (.wrap h4) hf hk h3, fun last => ?_⟩
          simp only [Sq.toks, Quant.toks, List.nil_append]
          refine capture_step (as := .last false (.cons a k (.nil false))) (loop_alts_ok h3) ?_ last _
          simp only [Alts.bodies, List.map_cons, List.map_nil, buildAll, h5]; rfl
      · have hsp : ∀ x ∈ as.spell, x ∈ allChars := fun x hx => hc x (Or.inl (Or.inl (by simp [Atom.spell, hx])))
        have hF := body_facts (rep_body h3)
        have hao := body_alts_ok (rep_body h3)
        have hrest := quant_hangN k hok.1.2 hk (Sq.head_quant s hok.2)
        cases c with
        | true =>
          simp only [Sq.tidy, Bool.and_eq_true, beq_iff_eq] at ht
          obtain ⟨rfl, ht⟩ := ht
          obtain ⟨ns, h4, h5⟩ := tops_all (gi + 1) as.bodies (fun x hx => ⟨hF.regular x hx, hF.empty x hx, bodies_spell as hsp x hx⟩)
          refine ⟨hangN k (.group (.alt ns) gi []), gi + 1, gi + 1, hangN_child _ _, ht, fun cs hf => fitsC_hangN (.cap (.alt h4)) hk hf h3, fun last => ?_⟩
          simp only [Sq.toks]
          rw [capture_step hao h5 last _, hrest]
        | false =>
          simp only [Sq.tidy] at ht
          obtain ⟨ns, h4, h5⟩ := tops_all gi as.bodies (fun x hx => ⟨hF.regular x hx, hF.empty x hx, bodies_spell as hsp x hx⟩)
          refine ⟨hangN k (.simple (.alt ns) []), n, 0, hangN_child _ _, ht, fun cs hf => fitsC_hangN (.simple (.alt h4)) hk hf h3, fun last => ?_⟩
          simp only [Sq.toks]
          rw [noncapture_step hao h5 last _, hrest]
          have := nextIdxs_le ns 0 (by simp [tops_slots h4])
          rw [show nextIdxs ns = 0 by omega]
    obtain ⟨g, n', gi', hg, ht', hf, hH⟩ := main
    have h4 : s.capOk = true := by
      rcases capOk_cases h with ⟨_, _, _, _, h4⟩ | ⟨_, _, _, _, _, h4⟩ | ⟨_, _, _, _, _, h4⟩ <;> exact h4
    obtain ⟨⟨cs, h5, h6⟩, _⟩ := (fun x => And.intro (x.1 g hg) x.2) (seq_tree s h4 (fun x hx => hc x (Or.inr hx)) n' gi' ht')
    refine ⟨fun h hh => ⟨[g cs], hf cs h5, ?_⟩, fun _ => ⟨g cs, hf cs h5, ?_⟩⟩
    · rw [hH, h6]; exact hh _
    · rw [hH, h6]; rfl

/-! ## the whole pattern -/

/-- Tree of the pattern. -/
inductive RootC (f : Bool) (n : Nat) (hat : Bool) (s : Sq) : Node → Prop
  | hat {cs : List Node} : hat = true → FitsC f n s cs → cs ≠ [] → RootC f n hat s (.simple .bos cs)
  | plain {t : Node} : hat = false → FitsC f n s [t] → RootC f n hat s t
  | wrap {t : Node} : RootC f n hat s t → RootC f n hat s (.alt [t])

theorem root_opt {f : Bool} {n : Nat} {hat : Bool} {s : Sq} {t : Node} (h : RootC f n hat s t) : RootC true n hat s (opt t []) := by
  induction h with
  | @hat cs h1 hf hne =>
    have := opt_fitsC hf
    cases cs with
    | nil => exact absurd rfl hne
    | cons c cs => exact .hat h1 this (by simp [opts])
  | plain h1 hf => exact .plain h1 (by simpa only [opts] using opt_fitsC hf)
  | wrap _ ih => simp only [opt]; exact ih

/-- The tree as written. -/
theorem build_root (hat : Bool) (s : Sq) (h : s.capOk = true) (ht : s.tidy 0 0 = true) (he : s.empty = false)
    (hc : ∀ c ∈ (Alts.last hat s).spell, c ∈ allChars) : ∃ t, build (Alts.last hat s).spell = some t ∧ RootC false 0 hat s t := by
  have hok : (Alts.last hat s).ok = true := by simp [Alts.ok, capOk_ok s h, he]
  have htk : tokenize (Alts.last hat s).spell = some (Alts.last hat s).toks := (tokenize_iff _ _).2 (by simpa using tokens_alts _ hok .nil)
  have hs : splitT 124 (Alts.last hat s).toks = [(Alts.last hat s).toks] := by
    have : splitT 124 (Alts.last hat s).toks = (Alts.last hat s).parts.map Prod.fst := by
      rw [toks_join]
      exact splitT_parts _ (parts_ne _) (topFree_alts _ hok)
    rw [this]; rfl
  have hc' : ∀ x ∈ s.spell, x ∈ allChars := fun x hx => hc x (by simp [Alts.spell, hx])
  obtain ⟨h1, h2⟩ := seq_tree s h hc' 0 0 ht
  have hroot : ∃ t, RootC false 0 hat s t ∧ H none (Alts.last hat s).toks 0 = some t := by
    cases hat with
    | true =>
      obtain ⟨cs, h3, h4⟩ := h1 (.simple .bos) (fun c => rfl)
      refine ⟨_, .hat rfl h3 ?_, by rw [show (Alts.last true s).toks = [94] :: s.toks from rfl, H_hat]; exact h4⟩
      rintro rfl; cases h3; simp [Sq.empty] at he
    | false =>
      obtain ⟨t, h3, h4⟩ := h2 he
      exact ⟨t, .plain rfl h3, h4⟩
  obtain ⟨t, h3, h4⟩ := hroot
  have hbuild : build (Alts.last hat s).spell = some (.alt [t]) := by
    simp only [build, htk, hs, topBranches]
    rw [helper_H (by omega), h4]; rfl
  exact ⟨_, hbuild, .wrap h3⟩

theorem compile_root (hat : Bool) (s : Sq) (h : s.capOk = true) (ht : s.tidy 0 0 = true) (he : s.empty = false)
    (hc : ∀ c ∈ (Alts.last hat s).spell, c ∈ allChars) : ∃ t, compile (Alts.last hat s).spell = some t ∧ RootC true 0 hat s t := by
  obtain ⟨b, hbuild, hb⟩ := build_root hat s h ht he hc
  obtain ⟨r, hr⟩ := optimize_some b
  refine ⟨r, by simp [compile, hbuild, hr], ?_⟩
  obtain ⟨⟨f, hw⟩, he⟩ := optFix_inv (P := fun t => ∃ f, RootC f 0 hat s t) (fun t ⟨f, ht⟩ => ⟨true, root_opt ht⟩) _ _ _
    ⟨false, hb⟩ hr
  rw [← he]; exact root_opt hw

end ERegex

import Verif.Proofs.CommitFit
import Verif.Proofs.FirstChars
/-!
# Patterns whose quantifiers the heuristics make possessive, or that have no use for what they could give back
-/
set_option autoImplicit false
namespace ERegex
open ERegex.Spec

theorem ascii_char {x : Int} (h : Spec.ascii x = true) : x ∈ allChars := by
  simp only [Spec.ascii, Bool.and_eq_true, decide_eq_true_eq] at h
  have : ∀ n : Fin 128, ((n : Nat) : Int) ∈ allChars := by decide +kernel
  have := this ⟨x.toNat, by omega⟩
  have e : ((x.toNat : Nat) : Int) = x := by omega
  rwa [show (((⟨x.toNat, by omega⟩ : Fin 128) : Nat) : Int) = x from e] at this

theorem char_firsts {a : Atom} (hg : ∀ c as, a ≠ .group c as) (h : a.ok = true) (hp : a.plainly = true) (hc : ∀ x ∈ a.spell, x ∈ allChars) (x : Int) (hx : a.firsts x = true) :
    x ∈ allChars := by
  have hs : (a.steady || a.skips) = true := by
    cases a <;> first | (simp only [Atom.plainly, Bool.and_eq_true] at hp; exact hp.2) | exact absurd rfl (hg _ _)
  have h1 := (atom_adm h hs (allc hc) 0).1
  have hb : a.bulk < 4294967296 := by cases a <;> first | exact absurd rfl (hg _ _) | simp [Atom.bulk]
  exact h1.char x ((h1.adm x).1 (((atom_firsts a h hb 0).2 x).2 hx))

mutual
theorem atom_in : ∀ (a : Atom), a.ok = true → a.plainly = true → (∀ x ∈ a.spell, x ∈ allChars) → ∀ x, a.firsts x = true → x ∈ allChars
  | .group c as, h, hp, hc, x, hx => by
    simp only [Atom.plainly, Bool.and_eq_true] at hp
    have hsp : ∀ x ∈ as.spell, x ∈ allChars := fun y hy => hc y (by cases c <;> simp [Atom.spell, hy])
    exact (alts_in as (by simpa [Atom.ok] using h) hp.2 hsp).1 x hx
  | .chr y, h, hp, hc, x, hx => char_firsts (by simp) h hp hc x hx
  | .esc y, h, hp, hc, x, hx => char_firsts (by simp) h hp hc x hx
  | .dot, h, hp, hc, x, hx => char_firsts (by simp) h hp hc x hx
  | .hex y z, h, hp, hc, x, hx => char_firsts (by simp) h hp hc x hx
  | .oct y z w, h, hp, hc, x, hx => char_firsts (by simp) h hp hc x hx
  | .cls neg items dash, h, hp, hc, x, hx => char_firsts (by simp) h hp hc x hx
theorem sq_in : ∀ (s : Sq), s.ok = true → s.plainly = true → (∀ x ∈ s.spell, x ∈ allChars) → ∀ x, s.firsts x = true → x ∈ allChars
  | .nil d, h, hp, hc, x, hx => by
    simp only [Sq.firsts, Bool.and_eq_true] at hx
    exact ascii_char hx.1.2
  | .cons a k s, h, hp, hc, x, hx => by
    simp only [Sq.ok, Bool.and_eq_true] at h
    simp only [Sq.plainly, Bool.and_eq_true] at hp
    simp only [Sq.firsts, Bool.or_eq_true, Bool.and_eq_true] at hx
    rcases hx with hx | hx
    · exact atom_in a h.1.1 hp.1.1.1.1 (fun x hx => hc x (by simp [Sq.spell, hx])) x hx
    · exact sq_in s h.2 hp.2 (fun x hx => hc x (by simp [Sq.spell, hx])) x hx.2
theorem alts_in : ∀ (as : Alts), as.ok = true → as.plainly = true → (∀ x ∈ as.spell, x ∈ allChars) → (∀ x, as.firsts x = true → x ∈ allChars) ∧ (∀ x, as.anyFirsts x = true → x ∈ allChars)
  | .last hat s, h, hp, hc => by
    simp only [Alts.ok, Bool.and_eq_true] at h
    simp only [Alts.plainly, Bool.and_eq_true] at hp
    have hs := sq_in s h.1 hp.2 (fun x hx => hc x (by simp [Alts.spell, hx]))
    constructor <;> intro x hx <;> simp only [Alts.firsts, Alts.anyFirsts, Bool.or_eq_true, Bool.and_eq_true] at hx
    all_goals
      rcases hx with hx | hx
      · exact ascii_char hx.2
      · exact hs x hx
  | .more hat s as, h, hp, hc => by
    simp only [Alts.ok, Bool.and_eq_true] at h
    simp only [Alts.plainly, Bool.and_eq_true] at hp
    have hs := sq_in s h.1.1 hp.1.1.1.2 (fun x hx => hc x (by simp [Alts.spell, hx]))
    have has := alts_in as h.2 hp.2 (fun x hx => hc x (by simp [Alts.spell, hx]))
    constructor <;> intro x hx <;> simp only [Alts.firsts, Alts.anyFirsts, Bool.or_eq_true, Bool.and_eq_true] at hx
    · rcases hx with (hx | hx) | hx
      · exact ascii_char hx.2
      · exact hs x hx
      · exact has.2 x hx.2
    · rcases hx with (hx | hx) | hx
      · exact ascii_char hx.2
      · exact hs x hx
      · exact has.2 x hx
end

/-! ## one round of the heuristics is enough -/

/-- The injected sets are inside `J`. -/
def InjIn (inj : List (List Int)) (J : Int → Bool) : Prop := ∀ S ∈ inj, ∀ x ∈ S, J x = true

theorem injIn_nil (J : Int → Bool) : InjIn [] J := by simp [InjIn]

theorem inter_empty {A : List Int} {l : List (List Int)} {F G : Int → Bool} (hA : ∀ x ∈ A, F x = true) (hl : InjIn l G) (hF : ∀ x, F x = true → x ∈ allChars) (h : meets F G = false) :
    (intersectSets A (extractAdm l)).isEmpty = true := by
  cases e : intersectSets A (extractAdm l) with
  | nil => rfl
  | cons x xs =>
    exfalso
    have hx : x ∈ intersectSets A (extractAdm l) := by rw [e]; simp
    obtain ⟨h1, h2⟩ := intersect_subset x _ _ _ hx
    rw [mem_extractAdm] at h2
    obtain ⟨S, hS, hx2⟩ := h2
    have : meets F G = true := by
      simp only [meets, List.any_eq_true, Bool.and_eq_true]
      exact ⟨x, hF x (hA x h1), hA x h1, hl S hS x hx2⟩
    rw [h] at this; cases this

theorem injIn_adm {o : Option Node} {f J : Int → Bool} {inj : List (List Int)} (hf : FstO o f) (h : InjIn inj J) : InjIn (admSets o.toList ++ inj) (fun x => f x || J x) := by
  intro S hS x hx
  rw [List.mem_append] at hS
  rcases hS with hS | hS
  · cases o with
    | none => simp [admSets] at hS
    | some c =>
      simp only [Option.toList, admSets, List.mem_singleton] at hS
      subst hS
      simp only [(hf.2 x).1 hx, Bool.true_or]
  · simp only [h S hS x hx, Bool.or_true]

/-- `n` with further children. -/
def appended : Node → List Node → Node
  | .simple m cs, l => .simple m (cs ++ l)
  | .greedy m lo hi cs, l => .greedy m lo hi (cs ++ l)
  | .lazy m lo hi cs, l => .lazy m lo hi (cs ++ l)
  | .possessive m lo hi cs, l => .possessive m lo hi (cs ++ l)
  | .repeated m k cs, l => .repeated m k (cs ++ l)
  | .group m j cs, l => .group m j (cs ++ l)
  | n, _ => n

theorem graft_list {n : Node} (h : opens n = true) (o : Option Node) : graft n o = appended n o.toList := by
  cases o <;> cases n <;> first | (simp [opens] at h; done) | simp [graft, addChild, appended]

/-- The inner node of an atom. -/
def Inside : Atom → Nat → Node → Prop
  | .group true as, n, x => ∃ ms, as.Row true (n + 1) ms ∧ Joined ms x
  | .group false as, n, x => ∃ ms, as.Row true n ms ∧ Joined ms x
  | .chr c, _, x => Atomic (.chr c) x
  | .esc c, _, x => Atomic (.esc c) x
  | .dot, _, x => Atomic .dot x
  | .hex c d, _, x => Atomic (.hex c d) x
  | .oct c d e, _, x => Atomic (.oct c d e) x
  | .cls neg items dash, _, x => Atomic (.cls neg items dash) x

theorem inside_cap {a : Atom} {n : Nat} {x : Node} (h : Inside a n x) (hc : a.isCap = true) : a.Fit true n (.group x n []) := by
  match a, hc with
  | .group true as, _ => obtain ⟨ms, h1, h2⟩ := h; exact ⟨x, ms, rfl, h1, h2⟩

theorem inside_plain {a : Atom} {n : Nat} {x : Node} (h : Inside a n x) (hc : a.isCap = false) : a.Fit true n x := by
  match a, hc with
  | .group false as, _ => obtain ⟨ms, h1, h2⟩ := h; exact ⟨x, ms, .inl rfl, h1, h2⟩
  | .chr .., _ => exact h
  | .esc .., _ => exact h
  | .dot, _ => exact h
  | .hex .., _ => exact h
  | .oct .., _ => exact h
  | .cls .., _ => exact h

theorem inside_flat {a : Atom} (hg : ∀ c as, a ≠ .group c as) {n : Nat} {x : Node} (h : Atomic a x) : Inside a n x := by
  cases a <;> first | exact h | exact absurd rfl (hg _ _)

/-- The node of an atom around `x`. -/
def Around (a : Atom) (n : Nat) (m x : Node) : Prop := (m = .simple x [] ∧ a.isCap = false) ∨ (m = .group x n [] ∧ a.isCap = true)

theorem char_hard {a : Atom} (hg : ∀ c as, a ≠ .group c as) (h : a.ok = true) (hp : a.plainly = true) (hc : ∀ x ∈ a.spell, x ∈ allChars) (g n : Nat) :
    ∃ x, Around a n (a.tree g).1 x ∧ ∀ inj J, a.hard J = true → InjIn inj J → Inside a n (opt x inj) := by
  have h1 := char_fit hg h hp hc g n
  have hcap : a.isCap = false := by cases a <;> first | rfl | exact absurd rfl (hg _ _)
  obtain ⟨x, e⟩ := h1.cls hcap
  refine ⟨x, .inl ⟨e, hcap⟩, fun inj J _ _ => inside_flat hg ?_⟩
  have := (fit_flat hg _ _).1 (h1.inner x e)
  rw [this.opt_inj]; exact this.opt

theorem toList_map {o : Option Node} {f : Node → Node} {c : Node} (h : o = some c) : o.toList.map f = [f c] := by subst h; rfl

theorem opts_of {o : Option Node} : opts o.toList = o.toList.map (fun c => opt c []) := opts_map _

theorem piece_hard {hat : Bool} {s : Sq} {gi n : Nat} (he : s.empty = false) {inj : List (List Int)} {J : Int → Bool} (hi : InjIn inj J)
    (hs : ∀ inj J, s.hard J = true → InjIn inj J → s.Fit true n ((s.tree gi).toList.map (fun c => opt c inj)))
    (hh : (if hat then s.hard (fun _ => false) else s.hard J) = true) : PieceFit hat (s.Fit true n) (opt (pieceTree hat s gi) inj) := by
  obtain ⟨c, ec⟩ := tree_some s gi he
  simp only [toList_map ec] at hs
  cases hat with
  | false => simp only [pieceTree, Bool.false_eq_true, if_false, ec, Option.getD_some, PieceFit]; exact hs inj J hh hi
  | true =>
    simp only [pieceTree, if_true, ec, PieceFit]
    exact ⟨[opt c []], by simp, hs [] _ hh (injIn_nil _), by simp [graft, addChild, opt, opts]⟩

/-- The tree of a group around one greedy repetition. -/
theorem lends_tree {a : Atom} {s : Sq} {gi n : Nat} {x : Node} (h : a.lends s = true) (e : (a.tree gi).1 = .group x n []) : ∃ c lo hi, x = .alt [.greedy c lo hi []] := by
  unfold Atom.lends at h
  split at h
  · rename_i s b k
    simp only [Bool.and_eq_true, Bool.not_eq_true'] at h
    obtain ⟨⟨⟨⟨⟨hm, ho⟩, hf⟩, _⟩, _⟩, _⟩ := h
    have hk : ∃ lo hi, quantTree (b.tree (gi + 1)).1 k = .greedy (b.tree (gi + 1)).1 lo hi [] := by
      cases k with
      | once => cases ho
      | exact => cases hf
      | star m => cases m <;> first | exact ⟨_, _, rfl⟩ | cases hm
      | plus m => cases m <;> first | exact ⟨_, _, rfl⟩ | cases hm
      | opt m => cases m <;> first | exact ⟨_, _, rfl⟩ | cases hm
      | atLeast _ m => cases m <;> first | exact ⟨_, _, rfl⟩ | cases hm
      | between _ _ m => cases m <;> first | exact ⟨_, _, rfl⟩ | cases hm
    obtain ⟨lo, hi, hk⟩ := hk
    simp only [Atom.tree, Alts.trees, Sq.tree, hk, graft, Bool.false_eq_true, if_false, Option.getD_some, Node.group.injEq] at e
    exact ⟨_, _, _, e.1.symm⟩
  · cases h

theorem opt_loop (c : Node) (lo hi : Nat) (inj : List (List Int)) :
    opt (.alt [.greedy c lo hi []]) inj = .possessive (opt c []) lo hi [] ∨ opt (.alt [.greedy c lo hi []]) inj = .greedy (opt c []) lo hi [] := by
  simp only [opt, opts]
  split
  · exact .inl rfl
  · exact .inr rfl

mutual
theorem atom_hard : ∀ (a : Atom), a.ok = true → a.plainly = true → (∀ x ∈ a.spell, x ∈ allChars) → a.bulk < 4294967296 → ∀ gi n, a.lined gi n = true →
    ∃ x, Around a n (a.tree gi).1 x ∧ ∀ inj J, a.hard J = true → InjIn inj J → Inside a n (opt x inj)
  | .chr c, h, hp, hc, _, g, n, _ => char_hard (by simp) h hp hc g n
  | .esc c, h, hp, hc, _, g, n, _ => char_hard (by simp) h hp hc g n
  | .dot, h, hp, hc, _, g, n, _ => char_hard (by simp) h hp hc g n
  | .hex .., h, hp, hc, _, g, n, _ => char_hard (by simp) h hp hc g n
  | .oct .., h, hp, hc, _, g, n, _ => char_hard (by simp) h hp hc g n
  | .cls .., h, hp, hc, _, g, n, _ => char_hard (by simp) h hp hc g n
  | .group c as, h, hp, hc, hb, gi, n, hl => by
    simp only [Atom.plainly, Bool.and_eq_true] at hp
    have hsp : ∀ y ∈ as.spell, y ∈ allChars := fun y hy => hc y (by cases c <;> simp [Atom.spell, hy])
    have hok : as.ok = true := by simpa [Atom.ok] using h
    cases c with
    | true =>
      simp only [Atom.lined, Bool.and_eq_true, beq_iff_eq] at hl
      obtain ⟨rfl, hl⟩ := hl
      exact ⟨_, .inr ⟨rfl, rfl⟩, fun inj J hh hi => (alts_hard as hok hp.2 hsp hb (gi + 1) (gi + 1) hl).1 inj J hh hi⟩
    | false => exact ⟨_, .inl ⟨rfl, rfl⟩, fun inj J hh hi => (alts_hard as hok hp.2 hsp hb gi n hl).1 inj J hh hi⟩
theorem sq_hard : ∀ (s : Sq), s.ok = true → s.plainly = true → (∀ x ∈ s.spell, x ∈ allChars) → s.bulk < 4294967296 → ∀ gi n, s.lined gi n = true →
    ∀ inj J, s.hard J = true → InjIn inj J → s.Fit true n ((s.tree gi).toList.map (fun c => opt c inj))
  | .nil d, _, _, _, _, gi, n, _, inj, J, _, _ => by
    cases d with
    | false => exact (rfl : ([] : List Node) = [])
    | true => exact .inr (by simp [Sq.tree, opt])
  | .cons a k s, h, hp, hc, hb, gi, n, hl, inj, J, hh, hi => by
    have hall := sq_firsts (.cons a k s) h hb gi
    have hin := sq_in (.cons a k s) h hp hc
    simp only [Sq.ok, Bool.and_eq_true] at h
    simp only [Sq.plainly, Bool.and_eq_true] at hp
    simp only [Sq.lined, Bool.and_eq_true] at hl
    have hb' := hb
    simp only [Sq.bulk, Nat.mul_add, Nat.mul_one] at hb'
    have hca : ∀ x ∈ a.spell, x ∈ allChars := fun x hx => hc x (by simp [Sq.spell, hx])
    have hcs : ∀ x ∈ s.spell, x ∈ allChars := fun x hx => hc x (by simp [Sq.spell, hx])
    have hba : a.bulk < 4294967296 := by omega
    have hbs : s.bulk < 4294967296 := by omega
    obtain ⟨x, hx, hxs⟩ := atom_hard a h.1.1 hp.1.1.1.1 hca hba gi n hl.1
    have ha := atom_firsts a h.1.1 hba gi
    have has := atom_in a h.1.1 hp.1.1.1.1 hca
    have hs := sq_firsts s h.2 hbs (a.tree gi).2
    have hrest : s.hard (fun _ => false) = true → s.Fit true (n + a.count) (opts (s.tree (a.tree gi).2).toList) := fun hh => by
      rw [opts_of]
      exact sq_hard s h.2 hp.2 hcs hbs _ _ (by rw [(atom_reach a h.1.1 gi).2]; exact hl.2) [] _ hh (injIn_nil _)
    have hatom : a.hard (fun _ => false) = true → a.Fit true n (opt (a.tree gi).1 []) := fun hh => by
      have := hxs [] _ hh (injIn_nil _)
      rcases hx with ⟨e, ec⟩ | ⟨e, ec⟩
      · rw [e]; simp only [opt]; exact inside_plain this ec
      · rw [e]; simp only [opt, opts, admSets, List.nil_append]; exact inside_cap this ec
    have hop := opens_quant (opens_atom a gi) k
    have htree : (Sq.cons a k s).tree gi = some (graft (quantTree (a.tree gi).1 k) (s.tree (a.tree gi).2)) := rfl
    rw [toList_map htree]
    have hkind : ∀ (m : QMode) (hi' : Nat), k.mode = m → k.isOnce = false → k.fixed = false → k.hiN = hi' → (match m with
        | .possessive => true
        | .greedy => !meets a.firsts (fun x => s.firsts x || J x) || (!s.empty && !(k.lo == 0 && k.hi == some 1) && a.slips (fun _ => false) && s.slips (fun _ => true))
        | .lazy => !meets (Sq.cons a k s).firsts (fun x => s.firsts x || J x)) = true → a.hard (fun _ => false) = true → s.hard (fun _ => false) = true →
        quantTree (a.tree gi).1 k = (polOf m).node (a.tree gi).1 k.lo hi' → (Sq.cons a k s).Fit true n [opt (graft (quantTree (a.tree gi).1 k) (s.tree (a.tree gi).2)) inj] := by
      intro m hi' hmd hon hfx hhi hm h1 h2 ek
      subst hhi
      have hall' : Fst (graft (quantTree (a.tree gi).1 k) (s.tree (a.tree gi).2)) (Sq.cons a k s).firsts := hall
      rw [ek] at hop hall' ⊢
      rw [graft_list hop] at hall' ⊢
      refine .inl ⟨_, _, _, rfl, hatom h1, hrest h2, ?_⟩
      unfold Hangs
      rw [if_neg (by simp [hon]), if_neg (by simp [hfx])]
      cases m with
      | possessive =>
        simp only [polOf, Policy.node, appended, List.nil_append, opt]
        exact .inr (.inr trivial)
      | greedy =>
        simp only [polOf, Policy.node, appended, List.nil_append, opt]
        split
        · exact .inr (.inr rfl)
        · rename_i hne
          rw [Bool.or_eq_true] at hm
          rcases hm with hm | hm
          · exact absurd (inter_empty (fun x hx => (ha.2 x).1 hx) (injIn_adm hs hi) has (by simpa using hm)) hne
          · exact .inl ⟨hmd, fun _ => hm, rfl⟩
      | «lazy» =>
        simp only [Bool.not_eq_true'] at hm
        simp only [polOf, Policy.node, appended, List.nil_append] at hall'
        simp only [polOf, Policy.node, appended, List.nil_append, opt]
        rw [if_pos (inter_empty (fun x hx => (hall'.2 x).1 hx) (injIn_adm hs hi) hin hm)]
        exact .inr (.inr rfl)
    simp only [Sq.hard, Bool.and_eq_true] at hh
    cases k with
    | once =>
      rw [graft_list hop]
      simp only [quantTree] at hop ⊢
      rcases hx with ⟨e, ec⟩ | ⟨e, ec⟩
      · rw [e]; simp only [appended, List.nil_append]
        simp only [ec, Bool.false_eq_true, if_false] at hh
        refine .inl ⟨_, _, _, rfl, inside_plain (hxs _ _ hh.1 hi) ec, hrest hh.2, ?_⟩
        unfold Hangs
        rw [if_pos (show Quant.once.isOnce = true from rfl)]
        cases (s.tree (a.tree gi).2).toList with
        | nil => exact .inl ⟨rfl, by simp [opt]⟩
        | cons d ds => exact .inr (.inl ⟨ec, by simp [opt, opts]⟩)
      · rw [e]
        simp only [ec, if_true, Bool.or_eq_true, Bool.and_eq_true] at hh
        simp only [appended, List.nil_append]
        rw [opt]
        have firm : Inside a n (opt x (admSets (s.tree (a.tree gi).2).toList ++ inj)) →
            (Sq.cons a .once s).Fit true n [.group (opt x (admSets (s.tree (a.tree gi).2).toList ++ inj)) n (opts (s.tree (a.tree gi).2).toList)] := fun hx => by
          refine .inl ⟨_, _, _, rfl, inside_cap hx ec, hrest hh.2, ?_⟩
          unfold Hangs
          rw [if_pos (show Quant.once.isOnce = true from rfl)]
          exact .inr (.inr ⟨ec, _, _, rfl, rfl⟩)
        rcases hh.1 with hh1 | ⟨hle, hh1⟩
        · exact firm (hxs _ _ hh1 (injIn_adm hs hi))
        · have hin := hxs [] _ hh1 (injIn_nil _)
          obtain ⟨c, lo, hi', ex⟩ := lends_tree hle e
          subst ex
          have e1 : opt (.alt [.greedy c lo hi' []]) [] = .possessive (opt c []) lo hi' [] := by
            have : (intersectSets (admSet c) (extractAdm [])).isEmpty = true := by
              cases h : intersectSets (admSet c) (extractAdm []) with
              | nil => rfl
              | cons y l =>
                have h' : y ∈ intersectSets (admSet c) (extractAdm []) := by rw [h]; simp
                have := (intersect_subset y _ _ _ h').2; simp [extractAdm] at this
            simp only [opt, opts, admSets, List.nil_append, this, if_true]
          rw [e1] at hin
          rcases opt_loop c lo hi' (admSets (s.tree (a.tree gi).2).toList ++ inj) with e2 | e2
          · exact firm (by rw [e2]; exact hin)
          · rw [e2]
            exact .inr ⟨rfl, rfl, hle, _, _, _, _, rfl, inside_cap hin ec, hrest hh.2⟩
    | exact d m =>
      rw [graft_list hop]
      simp only [quantTree, appended, List.nil_append, opt]
      refine .inl ⟨_, _, _, rfl, hatom hh.1, hrest hh.2, ?_⟩
      unfold Hangs
      rw [if_neg (by simp [Quant.isOnce]), if_pos (by simp [Quant.fixed])]
      rfl
    | star m => simp only [Bool.and_eq_true] at hh; exact hkind m _ rfl rfl rfl rfl hh.1.2 hh.1.1 hh.2 rfl
    | plus m => simp only [Bool.and_eq_true] at hh; exact hkind m _ rfl rfl rfl rfl hh.1.2 hh.1.1 hh.2 rfl
    | opt m => simp only [Bool.and_eq_true] at hh; exact hkind m _ rfl rfl rfl rfl hh.1.2 hh.1.1 hh.2 rfl
    | atLeast d m => simp only [Bool.and_eq_true] at hh; exact hkind m _ rfl rfl rfl rfl hh.1.2 hh.1.1 hh.2 rfl
    | between d l m => simp only [Bool.and_eq_true] at hh; exact hkind m _ rfl rfl rfl rfl hh.1.2 hh.1.1 hh.2 rfl
theorem alts_hard : ∀ (as : Alts), as.ok = true → as.plainly = true → (∀ x ∈ as.spell, x ∈ allChars) → as.bulk < 4294967296 → ∀ gi n, as.lined gi n = true →
    (∀ inj J, as.hard J = true → InjIn inj J → ∃ ms, as.Row true n ms ∧ Joined ms (opt (.alt (as.trees gi)) inj)) ∧ (as.hards = true → as.Row true n (opts (as.trees gi)))
  | .last hat s, h, hp, hc, hb, gi, n, hl => by
    simp only [Alts.ok, Bool.and_eq_true] at h
    simp only [Alts.plainly, Bool.and_eq_true, Bool.not_eq_true'] at hp
    have hs := sq_hard s h.1 hp.2 (fun x hx => hc x (by simp [Alts.spell, hx])) (by simpa [Alts.bulk] using hb) gi n hl
    constructor
    · intro inj J hh hi
      simp only [Alts.trees, opt]
      exact ⟨[_], ⟨_, rfl, piece_hard hp.1.1.2 hi hs hh⟩, .inr rfl⟩
    · intro hh
      simp only [Alts.trees, opts]
      exact ⟨_, rfl, piece_hard hp.1.1.2 (injIn_nil _) hs (by cases hat <;> exact hh)⟩
  | .more hat s as, h, hp, hc, hb, gi, n, hl => by
    simp only [Alts.ok, Bool.and_eq_true] at h
    simp only [Alts.plainly, Bool.and_eq_true, Bool.not_eq_true'] at hp
    simp only [Alts.lined, Bool.and_eq_true] at hl
    simp only [Alts.bulk] at hb
    have hs := sq_hard s h.1.1 hp.1.1.1.2 (fun x hx => hc x (by simp [Alts.spell, hx])) (by omega) gi n hl.1
    have hr := (alts_hard as h.2 hp.2 (fun x hx => hc x (by simp [Alts.spell, hx])) (by omega) gi (n + s.count) hl.2).2
    have hboth : s.hard (fun _ => false) = true → as.hards = true → (Alts.more hat s as).Row true n (opts ((Alts.more hat s as).trees gi)) := fun h1 h2 => by
      simp only [Alts.trees, opts]
      exact ⟨_, _, rfl, piece_hard hp.1.1.1.1.1.2 (injIn_nil _) hs (by cases hat <;> exact h1), hr h2⟩
    constructor
    · intro inj J hh hi
      simp only [Alts.hard, Bool.and_eq_true] at hh
      refine ⟨_, hboth hh.1 hh.2, .inl ?_⟩
      cases e : as.trees gi with
      | nil => cases as <;> simp [Alts.trees] at e
      | cons d ds => simp only [Alts.trees, e, opt, opts]
    · intro hh
      simp only [Alts.hards, Bool.and_eq_true] at hh
      exact hboth hh.1 hh.2
end

theorem tops_hard : ∀ (as : Alts), as.ok = true → as.plainly = true → (∀ x ∈ as.spell, x ∈ allChars) → as.bulk < 4294967296 → as.hards = true → ∀ gi n, as.aligned gi n = true →
    as.Row true n (opts (as.tops gi))
  | .last hat s, h, hp, hc, hb, hh, gi, n, hl => by
    simp only [Alts.ok, Bool.and_eq_true] at h
    simp only [Alts.plainly, Bool.and_eq_true, Bool.not_eq_true'] at hp
    simp only [Alts.tops, opts]
    exact ⟨_, rfl, piece_hard hp.1.1.2 (injIn_nil _) (sq_hard s h.1 hp.2 (fun x hx => hc x (by simp [Alts.spell, hx])) (by simpa [Alts.bulk] using hb) gi n hl)
      (by cases hat <;> exact hh)⟩
  | .more hat s as, h, hp, hc, hb, hh, gi, n, hl => by
    simp only [Alts.ok, Bool.and_eq_true] at h
    simp only [Alts.plainly, Bool.and_eq_true, Bool.not_eq_true'] at hp
    simp only [Alts.aligned, Bool.and_eq_true] at hl
    simp only [Alts.bulk] at hb
    simp only [Alts.hards, Bool.and_eq_true] at hh
    simp only [Alts.tops, opts]
    refine ⟨_, _, rfl, piece_hard hp.1.1.1.1.1.2 (injIn_nil _) (sq_hard s h.1.1 hp.1.1.1.2 (fun x hx => hc x (by simp [Alts.spell, hx])) (by omega) gi n hl.1)
      (by cases hat <;> exact hh.1), ?_⟩
    rw [piece_reach hat s h.1.1 (by simp [hp.1.1.1.1.1.2])]
    exact tops_hard as h.2 hp.2 (fun x hx => hc x (by simp [Alts.spell, hx])) (by omega) hh.2 _ _ hl.2

/-- One round makes every quantifier possessive, except those that give nothing back anyway. -/
theorem committed_fit {as : Alts} (h : as.ok = true) (hp : as.plainly = true) (hc : ∀ x ∈ as.spell, x ∈ allChars) (hb : as.bulk < 4294967296) (hl : as.aligned 0 0 = true)
    (hh : as.hard (fun _ => false) = true) : ∃ t ms, compile as.spell = some t ∧ as.Row true 0 ms ∧ Joined ms t := by
  have h1 : ∃ ms, as.Row true 0 ms ∧ Joined ms (opt as.tree []) := by
    have := tops_hard as h hp hc hb (by cases as with
      | last hat s => simp only [Alts.hard] at hh; simp only [Alts.hards]; cases hat <;> exact hh
      | more => exact hh) 0 0 hl
    cases as with
    | last hat s => exact ⟨_, this, .inr (by simp only [Alts.tree, Alts.tops, opt, opts])⟩
    | more hat s as =>
      refine ⟨_, this, .inl ?_⟩
      simp only [Alts.tree]
      cases e : as.tops (nextIdx (pieceTree hat s 0)) with
      | nil => cases as <;> simp [Alts.tops] at e
      | cons d ds => simp only [Alts.tops, e, opt, opts]
  obtain ⟨t, ht⟩ := optimize_some as.tree
  have hcp : compile as.spell = some t := by simp [compile, build_tree as h, ht]
  have key : ∃ ms, as.Row true 0 ms ∧ Joined ms t := by
    simp only [optimize] at ht
    rw [optFix] at ht
    split at ht
    · rename_i e
      cases ht; rwa [e] at h1
    · exact (optFix_inv (P := fun t => ∃ ms, as.Row true 0 ms ∧ Joined ms t) (fun t ht => by
        obtain ⟨ms, h2, h3⟩ := ht
        obtain ⟨h4, h5⟩ := row_fit_opt as 0 ms h2
        exact joined_opt h3 h4 h5 (row_ne _ _ _ h2) []) _ _ _ h1 ht).1
  obtain ⟨ms, k1, k2⟩ := key
  exact ⟨t, ms, hcp, k1, k2⟩

/-! ## such trees do not look at what follows -/

mutual
theorem strict_single : ∀ (m : Node), single m = true → strict m = true
  | .exact .., _ | .range .., _ | .word, _ | .any, _ => rfl
  | .simple m cs, h => by
    simp only [single, Bool.and_eq_true, List.isEmpty_iff] at h
    obtain ⟨h, rfl⟩ := h
    simp [strict, stricts, strict_single m h]
  | .alt cs, h => by
    simp only [single, Bool.and_eq_true] at h
    simp only [strict]; exact stricts_singles cs h.2
  | .space, h | .bos, h | .eol, h => by simp [single] at h
  | .negated _, h => by simp [single] at h
  | .repeated .., h => by simp [single] at h
  | .greedy .., h => by simp [single] at h
  | .lazy .., h => by simp [single] at h
  | .possessive .., h => by simp [single] at h
  | .group .., h => by simp [single] at h
theorem stricts_singles : ∀ (cs : List Node), singles cs = true → stricts cs = true
  | [], _ => rfl
  | c :: cs, h => by
    simp only [singles, Bool.and_eq_true] at h
    simp [stricts, strict_single c h.1, stricts_singles cs h.2]
end

mutual
theorem strict_skipping : ∀ (m : Node), skipping m = true → strict m = true
  | .space, _ => rfl
  | .negated _, _ => rfl
  | .simple m cs, h => by
    simp only [skipping, Bool.and_eq_true, List.isEmpty_iff] at h
    obtain ⟨h, rfl⟩ := h
    simp [strict, stricts, strict_skipping m h]
  | .alt cs, h => by
    simp only [skipping] at h
    simp only [strict]; exact stricts_skippings cs h
  | .exact .., h | .range .., h | .word, h | .any, h | .bos, h | .eol, h => by simp [skipping] at h
  | .repeated .., h => by simp [skipping] at h
  | .greedy .., h => by simp [skipping] at h
  | .lazy .., h => by simp [skipping] at h
  | .possessive .., h => by simp [skipping] at h
  | .group .., h => by simp [skipping] at h
theorem stricts_skippings : ∀ (cs : List Node), skippings cs = true → stricts cs = true
  | [], h => by simp [skippings] at h
  | [c], h => by simp [stricts, strict_skipping c (by simpa [skippings] using h)]
  | c :: d :: cs, h => by
    simp only [skippings, Bool.and_eq_true] at h
    have := stricts_skippings (d :: cs) h.2
    simp only [stricts, Bool.and_eq_true] at this ⊢
    exact ⟨strict_single c h.1, this⟩
end

theorem atomic_strict {a : Atom} {m : Node} (h : Atomic a m) : strict m = true := by
  have := h.one
  simp only [oneCh, Bool.or_eq_true] at this
  rcases this with h | h
  · exact strict_single m h
  · exact strict_skipping m h

theorem lend_nil (m : Node) : lend m [] = false := by
  cases m with
  | greedy m lo hi cs => cases cs <;> simp [lend]
  | _ => rfl

theorem joined_strict {ms : List Node} {x : Node} (h : Joined ms x) : strict x = stricts ms := by
  rcases h with rfl | rfl
  · simp [strict]
  · simp [stricts]

theorem hangs_strict {a : Atom} {k : Quant} {s : Sq} {m : Node} {ds : List Node} {nd : Node} {n : Nat} (h : Hangs true a k s m ds nd) (hs : s.Fit true n ds)
    (hm : strict m = true) (hd : stricts ds = true) : strict nd = true := by
  unfold Hangs at h
  split at h
  · rcases h with ⟨rfl, rfl⟩ | ⟨_, rfl⟩ | ⟨_, x, j, rfl, rfl⟩
    · exact hm
    · simp [strict, hm, hd]
    · simp only [strict, stricts, Bool.and_true, lend_nil, Bool.or_false] at hm
      simp [strict, hm, hd]
  · split at h
    · subst h; simp [strict, hm, hd]
    · rcases h with ⟨_, h, rfl⟩ | ⟨h, _⟩ | rfl
      · have := h rfl
        simp only [soft, Bool.and_eq_true] at this
        simp only [strict, hm, hd, Bool.and_true, Bool.and_eq_true]
        refine ⟨?_, ?_⟩
        · cases ds with
          | cons => rfl
          | nil =>
            rcases fit_len s _ _ hs with ⟨_, e⟩ | ⟨c, e⟩
            · rw [e] at this; simp [Sq.empty] at this
            · cases e
        · cases e : (k.lo == 0 && k.hiN == 1) with
          | false => rfl
          | true =>
            simp only [Bool.and_eq_true, beq_iff_eq] at e
            obtain ⟨e1, e2⟩ := e
            have : k.hi = some 1 := by
              unfold Quant.hiN at e2
              cases hh : k.hi with
              | none => rw [hh] at e2; simp [umax] at e2
              | some v => rw [hh] at e2; simp at e2; rw [e2]
            simp_all
      · cases h
      · simp [strict, hm, hd]

theorem not_empty {s : Sq} {n : Nat} {ds : List Node} {fl : Bool} (h : s.Fit fl n ds) (he : s.empty = false) : (!ds.isEmpty) = true := by
  cases ds with
  | cons => rfl
  | nil =>
    rcases fit_len s _ _ h with ⟨_, e⟩ | ⟨c, e⟩
    · rw [e] at he; cases he
    · cases e

theorem hiN_ends {k : Quant} (h : (k.lo == 0 && k.hi == some 1) = false) : (!(k.lo == 0 && k.hiN == 1)) = true := by
  cases e : (k.lo == 0 && k.hiN == 1) with
  | false => rfl
  | true =>
    simp only [Bool.and_eq_true, beq_iff_eq] at e
    obtain ⟨e1, e2⟩ := e
    have : k.hi = some 1 := by
      unfold Quant.hiN at e2
      cases hh : k.hi with
      | none => rw [hh] at e2; simp [umax] at e2
      | some v => rw [hh] at e2; simp at e2; rw [e2]
    simp_all

/-- A group around one greedy repetition, and its tree. -/
theorem lends_shape {a : Atom} {s : Sq} {n : Nat} {m : Node} {lo hi : Nat} (h : a.lends s = true) (hf : a.Fit true n (.group (.possessive m lo hi []) n [])) :
    (∃ b k, a = .group true (.last false (.cons b k (.nil false))) ∧ b.Fit true (n + 1) m ∧ k.mode = .greedy ∧ k.isOnce = false ∧ k.fixed = false ∧ lo = k.lo ∧ hi = k.hiN ∧
      b.slips (fun _ => false) = true) ∧ True ∧ (!(lo == 0 && hi == 1)) = true ∧ s.empty = false ∧ True := by
  unfold Atom.lends at h
  split at h
  · rename_i s b k
    simp only [Bool.and_eq_true, Bool.not_eq_true'] at h
    obtain ⟨⟨⟨⟨⟨hm, ho⟩, hx⟩, h1⟩, hb⟩, he⟩ := h
    have hmode : k.mode = .greedy := by
      cases e : k.mode <;> rw [e] at hm <;> first | rfl | cases hm
    obtain ⟨x, ms, e1, ⟨c, rfl, hp⟩, hj⟩ := hf
    simp only [Node.group.injEq, and_true] at e1
    subst e1
    rcases hj with hj | hj
    · cases hj
    · simp only [List.cons.injEq, and_true] at hj
      subst hj
      rcases hp with ⟨m', ds, nd, e2, f1, f2, f3⟩ | ⟨_, f, _⟩
      · simp only [List.cons.injEq, and_true] at e2
        subst e2
        unfold Hangs at f3
        rw [if_neg (by simp [ho]), if_neg (by simp [hx])] at f3
        rcases f3 with ⟨_, _, f3⟩ | ⟨f3, _⟩ | f3
        · cases f3
        · cases f3
        · simp only [Node.possessive.injEq] at f3
          obtain ⟨rfl, rfl, rfl, _⟩ := f3
          exact ⟨⟨b, k, rfl, f1, hmode, ho, hx, rfl, rfl, hb⟩, trivial, hiN_ends h1, he, trivial⟩
      · rw [ho] at f; cases f
  · cases h

mutual
theorem atom_strict : ∀ (a : Atom) (n : Nat) (m : Node), a.Fit true n m → strict m = true
  | .group true as, n, m, h => by
    obtain ⟨x, ms, rfl, h1, h2⟩ := h
    simp [strict, stricts, joined_strict h2, row_strict as _ ms h1]
  | .group false as, n, m, h => by
    obtain ⟨x, ms, hm, h1, h2⟩ := h
    have : strict x = true := by rw [joined_strict h2]; exact row_strict as _ ms h1
    rcases hm with rfl | rfl
    · exact this
    · simp [strict, stricts, this]
  | .chr x, n, m, h => atomic_strict h
  | .esc x, n, m, h => atomic_strict h
  | .dot, n, m, h => atomic_strict h
  | .hex x y, n, m, h => atomic_strict h
  | .oct x y z, n, m, h => atomic_strict h
  | .cls neg items dash, n, m, h => atomic_strict h
theorem sq_strict : ∀ (s : Sq) (n : Nat) (cs : List Node), s.Fit true n cs → stricts cs = true
  | .nil false, n, cs, h => by have h : cs = [] := h; subst h; rfl
  | .nil true, n, cs, h => by rcases h with rfl | rfl <;> rfl
  | .cons a k s, n, cs, h => by
    rcases h with ⟨m, ds, nd, rfl, h1, h2, h3⟩ | ⟨_, _, hl, m, lo, hi, ds, rfl, h1, h2⟩
    · simp only [stricts, Bool.and_true]
      exact hangs_strict h3 h2 (atom_strict a n m h1) (sq_strict s _ ds h2)
    · have i1 := atom_strict a n _ h1
      simp only [strict, stricts, Bool.and_true, lend_nil, Bool.or_false] at i1
      obtain ⟨j1, _, j3, j4, _⟩ := lends_shape hl h1
      simp only [stricts, strict, lend, i1, sq_strict s _ ds h2, Bool.and_true, Bool.true_and, Bool.or_eq_true, Bool.and_eq_true]
      exact .inr ⟨j3, not_empty h2 j4⟩
theorem row_strict : ∀ (as : Alts) (n : Nat) (ms : List Node), as.Row true n ms → stricts ms = true
  | .last hat s, n, ms, h => by
    obtain ⟨m, rfl, h1⟩ := h
    cases hat with
    | true => obtain ⟨cs, _, h2, rfl⟩ := h1; simp [stricts, strict, sq_strict s n cs h2]
    | false => exact sq_strict s n [m] h1
  | .more hat s as, n, ms, h => by
    obtain ⟨m, ms', rfl, h1, h2⟩ := h
    have h3 := row_strict as _ ms' h2
    cases hat with
    | true => obtain ⟨cs, _, h4, rfl⟩ := h1; simp [stricts, strict, sq_strict s n cs h4, h3]
    | false =>
      have := sq_strict s n [m] h1
      simp only [stricts, Bool.and_true] at this
      simp [stricts, this, h3]
end

end ERegex

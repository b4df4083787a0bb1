import Verif.Spec.Final
import Verif.Proofs.Final
import Verif.Proofs.Numbering
import Verif.Proofs.Sure
/-!
# The trees of patterns whose groups come last
-/
set_option autoImplicit false
namespace ERegex
open Spec

mutual
theorem final_quiet : ∀ (t : Node), slots t = [] → final t = true
  | .exact .., _ | .range .., _ | .word, _ | .any, _ | .bos, _ | .eol, _ | .space, _ => rfl
  | .negated m, h => by simpa [final, slots] using h
  | .simple m [], h => by
    simp only [slots, slotss, List.append_nil] at h
    simp only [final]; exact final_quiet m h
  | .simple m (c :: cs), h => by
    simp only [slots, slotss, List.append_eq_nil_iff] at h
    simp [final, h.1, final_quiet c h.2.1, finals_quiet cs h.2.2]
  | .alt cs, h => by
    simp only [slots] at h
    simp only [final]; exact finals_quiet cs h
  | .greedy m _ _ cs, h | .lazy m _ _ cs, h | .possessive m _ _ cs, h | .repeated m _ cs, h => by
    simp only [slots, List.append_eq_nil_iff] at h
    simp [final, h.1, finals_quiet cs h.2]
  | .group m _ cs, h => by simp [slots] at h
theorem finals_quiet : ∀ (l : List Node), slotss l = [] → finals l = true
  | [], _ => rfl
  | c :: l, h => by
    simp only [slotss, List.append_eq_nil_iff] at h
    simp [finals, final_quiet c h.1, finals_quiet l h.2]
end

mutual
theorem final_opt : ∀ (t : Node) (inj : List (List Int)), final t = true → final (opt t inj) = true
  | .exact .., _, h | .range .., _, h | .word, _, h | .any, _, h | .bos, _, h | .eol, _, h | .space, _, h => by simp [opt, final]
  | .negated m, _, h => by simpa [opt, final, slots_opt] using h
  | .simple m [], inj, h => by
    simp only [final] at h
    rw [opt]; exact final_opt m inj h
  | .simple m (c :: cs), inj, h => by
    simp only [final, Bool.and_eq_true] at h
    simp [opt, final, slots_opt, final_opt c [] h.2.1, finals_opts cs h.2.2, List.isEmpty_iff.1 h.1]
  | .alt [], _, _ => rfl
  | .alt [c], inj, h => by
    simp only [final, finals, Bool.and_true] at h
    rw [opt]; exact final_opt c inj h
  | .alt (c :: d :: cs), inj, h => by
    simp only [final, finals, Bool.and_eq_true] at h
    simp [opt, final, finals, final_opt c [] h.1, final_opt d [] h.2.1, finals_opts cs h.2.2]
  | .greedy m lo hi cs, inj, h => by
    simp only [final, Bool.and_eq_true, List.isEmpty_iff] at h
    rw [opt]; split <;> simp [final, slots_opt, h.1, finals_opts cs h.2]
  | .lazy m lo hi cs, inj, h => by
    simp only [final, Bool.and_eq_true, List.isEmpty_iff] at h
    rw [opt]; split <;> simp [final, slots_opt, h.1, finals_opts cs h.2]
  | .possessive m _ _ cs, _, h | .repeated m _ cs, _, h => by
    simp only [final, Bool.and_eq_true, List.isEmpty_iff] at h
    simp [opt, final, slots_opt, h.1, finals_opts cs h.2]
  | .group m _ cs, inj, h => by
    simp only [final, Bool.and_eq_true, List.isEmpty_iff] at h
    obtain ⟨rfl, h⟩ := h
    simp [opt, opts, final, final_opt m _ h]
theorem finals_opts : ∀ (l : List Node), finals l = true → finals (opts l) = true
  | [], _ => rfl
  | c :: l, h => by
    simp only [finals, Bool.and_eq_true] at h
    simp [opts, finals, final_opt c [] h.1, finals_opts l h.2]
end

theorem final_rounds : ∀ (k : Nat) (t : Node), final t = true → final (rounds k t) = true
  | 0, _, h => h
  | k + 1, t, h => final_rounds k (opt t []) (final_opt t [] h)

/-! ## the tree of a pattern -/

theorem final_graft {a : Atom} {q : Quant} {gi : Nat} (hs : slots (a.tree gi).1 = []) {o : Option Node} (ho : ∀ c, o = some c → final c = true) :
    final (graft (quantTree (a.tree gi).1 q) o) = true := by
  cases o with
  | none =>
    simp only [graft]
    exact final_quiet _ (by rw [slots_quant]; exact hs)
  | some c =>
    have hc := ho c rfl
    rcases atom_form a gi with ⟨_, m, hm⟩ | ⟨_, m, hm⟩
    · rw [hm] at hs ⊢
      have hs' : slots m = [] := by simpa [slots, slotss] using hs
      cases q with
      | once => simp [quantTree, graft, addChild, final, finals, hs', hc]
      | exact k md => simp [quantTree, graft, addChild, final, finals, slots, slotss, hs', hc]
      | star md | plus md | opt md | atLeast k md | between k l md =>
        cases md <;> simp [quantTree, polOf, Policy.node, graft, addChild, final, finals, slots, slotss, hs', hc]
    · rw [hm] at hs; simp [slots] at hs

mutual
theorem atom_final : ∀ (a : Atom), a.ok = true → a.groupsLast = true → ∀ gi, final (a.tree gi).1 = true
  | .chr c, h, _, gi => final_quiet _ (by rw [atom_numbers _ h]; rfl)
  | .dot, h, _, gi => final_quiet _ (by rw [atom_numbers _ h]; rfl)
  | .hex .., h, _, gi | .oct .., h, _, gi => final_quiet _ (by rw [atom_numbers _ h]; rfl)
  | .esc c, h, _, gi => final_quiet _ (by rw [atom_numbers _ h]; rfl)
  | .cls .., h, _, gi => final_quiet _ (by rw [atom_numbers _ h]; rfl)
  | .group true as, h, hl, gi => by
    have h0 : as.ok = true := by simpa [Atom.ok] using h
    have := trees_final as h0 (by simpa [Atom.groupsLast] using hl) (gi + 1)
    simp [Atom.tree, final, this]
  | .group false as, h, hl, gi => by
    have h0 : as.ok = true := by simpa [Atom.ok] using h
    have := trees_final as h0 (by simpa [Atom.groupsLast] using hl) gi
    simp [Atom.tree, final, this]
theorem sq_final : ∀ (s : Sq), s.ok = true → s.groupsLast = true → ∀ gi, ∀ c, s.tree gi = some c → final c = true
  | .nil d, _, _, gi => by
    intro c hc
    cases d <;> simp [Sq.tree] at hc
    subst hc; rfl
  | .cons a q s, h, hl, gi => by
    simp only [Sq.ok, Bool.and_eq_true] at h
    intro c hc
    simp only [Sq.tree, Option.some.injEq] at hc
    subst hc
    simp only [Sq.groupsLast] at hl
    split at hl
    · rename_i he
      refine final_graft ?_ (sq_final s h.2 hl _)
      rw [atom_numbers a h.1.1]
      have := atom_contents a gi
      rw [List.isEmpty_iff.1 he, List.map_eq_nil_iff] at this
      simp [this]
    · simp only [Bool.and_eq_true] at hl
      have e1 : q = .once := by cases q <;> simp [Quant.isOnce] at hl; rfl
      have e2 : s = .nil false := by
        cases s with
        | nil d => cases d <;> simp [Sq.blank] at hl; rfl
        | cons => simp [Sq.blank] at hl
      subst e1; subst e2
      simp only [Sq.tree, graft, quantTree]
      exact atom_final a h.1.1 hl.2 gi
theorem piece_final : ∀ (hat : Bool) (s : Sq), s.ok = true → (hat || !s.empty) = true → s.groupsLast = true → ∀ gi, final (pieceTree hat s gi) = true
  | true, s, h, _, hl, gi => by
    simp only [pieceTree, if_true]
    have := sq_final s h hl gi
    cases hs : s.tree gi with
    | none => rfl
    | some c => simp [graft, addChild, final, finals, slots, this c hs]
  | false, s, h, he, hl, gi => by
    obtain ⟨c, hc⟩ := tree_some s gi (by simpa using he)
    have := sq_final s h hl gi c hc
    simpa [pieceTree, hc] using this
theorem trees_final : ∀ (as : Alts), as.ok = true → as.groupsLast = true → ∀ gi, finals (as.trees gi) = true
  | .last hat s, h, hl, gi => by
    simp only [Alts.ok, Bool.and_eq_true] at h
    have := piece_final hat s h.1 h.2 hl gi
    unfold pieceTree at this
    simp [Alts.trees, finals, this]
  | .more hat s as, h, hl, gi => by
    simp only [Alts.ok, Bool.and_eq_true] at h
    simp only [Alts.groupsLast, Bool.and_eq_true] at hl
    have := piece_final hat s h.1.1 h.1.2 hl.1 gi
    unfold pieceTree at this
    simp [Alts.trees, finals, this, trees_final as h.2 hl.2 gi]
end

theorem tops_final : ∀ (as : Alts), as.ok = true → as.groupsLast = true → ∀ gi, finals (as.tops gi) = true
  | .last hat s, h, hl, gi => by
    simp only [Alts.ok, Bool.and_eq_true] at h
    simp [Alts.tops, finals, piece_final hat s h.1 h.2 hl gi]
  | .more hat s as, h, hl, gi => by
    simp only [Alts.ok, Bool.and_eq_true] at h
    simp only [Alts.groupsLast, Bool.and_eq_true] at hl
    simp [Alts.tops, finals, piece_final hat s h.1.1 h.1.2 hl.1 gi, tops_final as h.2 hl.2]

theorem tree_final (as : Alts) (h : as.ok = true) (hl : as.groupsLast = true) : final as.tree = true := by
  simpa [Alts.tree, final] using tops_final as h hl 0

/-! ## the search -/

theorem loop_ends {cx : Ctx} {m : K} (hm : Ends m) : ∀ (f : Nat) (a b : St), nextLoop cx m f a = .ok b →
    (b.accepted = false → b.groups = a.groups) ∧
    (b.accepted = true → ∃ s : St, s.groups = a.groups ∧ m s = some b ∧ (a.start = a.pos → s.start = s.pos) ∧ s.start < cx.qend) := by
  intro f
  induction f with
  | zero =>
    intro a b hb
    simp only [nextLoop] at hb
    split at hb
    · simp at hb
    · simp at hb; subst hb; exact ⟨fun _ => rfl, fun h => by cases h⟩
  | succ f ih =>
    intro a b hb
    simp only [nextLoop] at hb
    split at hb
    · rename_i hlt
      split at hb
      · simp at hb
      · rename_i a' ha'
        split at hb
        · rename_i ha
          simp at hb; subst hb
          exact ⟨fun h => (by rw [ha] at h; cases h), fun _ => ⟨a, rfl, ha', fun h => h, hlt⟩⟩
        · rename_i ha
          have hg := (hm _ _ ha').1 (by simpa using ha)
          obtain ⟨h1, h2⟩ := ih _ _ hb
          refine ⟨fun h => (h1 h).trans hg, fun h => ?_⟩
          obtain ⟨s, h3, h4, h5, h6⟩ := h2 h
          exact ⟨s, h3.trans hg, h4, fun _ => h5 rfl, h6⟩
    · simp at hb; subst hb; exact ⟨fun _ => rfl, fun h => by cases h⟩

/-- Every result: either not accepted and without captures, or the outcome of one attempt that began without captures. -/
theorem reach_ends {cx : Ctx} {t : Node} (ht : final t = true) {st : St} (hr : Reach cx t st) :
    (st.accepted = false → st.groups = List.replicate (groupsOf t) none) ∧
    (st.accepted = true → ∃ s : St, s.groups = List.replicate (groupsOf t) none ∧ run cx t [] s = some st ∧ s.start = s.pos ∧
      (s.pos < cx.qend ∨ s.pos = 0)) := by
  have hn : ∀ f a b, next cx t f a = .ok b → (b.accepted = false → b.groups = List.replicate (groupsOf t) none) ∧
      (b.accepted = true → ∃ s : St, s.groups = List.replicate (groupsOf t) none ∧ run cx t [] s = some b ∧ s.start = s.pos ∧
        (s.pos < cx.qend ∨ s.pos = 0)) := by
    intro f a b hb
    obtain ⟨h1, h2⟩ := loop_ends (run_ends cx t ht) f _ b hb
    refine ⟨h1, fun h => ?_⟩
    obtain ⟨s, h3, h4, h5, h6⟩ := h2 h
    have := h5 rfl
    exact ⟨s, h3, h4, this, .inl (by omega)⟩
  cases hr with
  | next _ h => exact hn _ _ _ h
  | make h =>
    unfold construct at h
    split at h
    · simp at h
    · rename_i s1 e1
      split at h
      · rename_i ha
        simp at h; subst h
        exact ⟨fun h => (by rw [ha] at h; cases h), fun _ => ⟨initSt t, rfl, e1, rfl, .inr rfl⟩⟩
      · exact hn _ _ _ h

end ERegex

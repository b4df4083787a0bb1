import Verif.Spec.Printable
import Verif.Proofs.Print
import Verif.Proofs.Sure
import Verif.Proofs.PreferBuild
/-!
# Patterns as written whose compiled tree can be read back
-/
set_option autoImplicit false
namespace ERegex
open ERegex.Spec

/-! ## optimizing keeps the shape of what is read -/

/-- The same shape. -/
def sLike : Sq → Sq → Prop
  | .nil d, .nil d' => d = d'
  | .cons _ k s, .cons _ k' s' => (k = .once → k' = .once) ∧ sLike s s'
  | _, _ => False

/-- The same shape. -/
def aLike : Alts → Alts → Prop
  | .last h s, .last h' s' => h = h' ∧ sLike s s'
  | .more .., .more .. => True
  | _, _ => False

theorem sLike_refl : ∀ s : Sq, sLike s s
  | .nil _ => rfl
  | .cons _ _ s => ⟨id, sLike_refl s⟩

theorem aLike_refl : ∀ x : Alts, aLike x x
  | .last _ s => ⟨rfl, sLike_refl s⟩
  | .more .. => trivial

theorem sLike_nil {d : Bool} {t : Sq} (h : sLike (.nil d) t) : t = .nil d := by
  cases t with
  | nil d' => have : d = d' := h; rw [this]
  | cons => exact h.elim

theorem appSq_like : ∀ {s t s' t' r : Sq}, sLike s t → sLike s' t' → appSq s s' = some r → ∃ r', appSq t t' = some r' ∧ sLike r r'
  | .nil false, t, s', t', r, h1, h2, e => by
    rw [sLike_nil h1]; simp only [appSq, Option.some.injEq] at e ⊢; subst e; exact ⟨_, rfl, h2⟩
  | .nil true, t, s', t', r, h1, h2, e => by
    rw [sLike_nil h1]
    cases s' with
    | nil d =>
      cases d with
      | false => rw [sLike_nil h2]; simp only [appSq, Option.some.injEq] at e ⊢; subst e; exact ⟨_, rfl, rfl⟩
      | true => cases e
    | cons => cases e
  | .cons a k s, t, s', t', r, h1, h2, e => by
    cases t with
    | nil => exact h1.elim
    | cons b k' t =>
      simp only [appSq, Option.map_eq_some_iff] at e ⊢
      obtain ⟨r0, e0, rfl⟩ := e
      obtain ⟨r1, e1, h3⟩ := appSq_like h1.2 h2 e0
      exact ⟨_, ⟨r1, e1, rfl⟩, h1.1, h3⟩

theorem asAtom_like {x y : Alts} {a : Atom} (h : aLike x y) (e : asAtom x = some a) : ∃ b, asAtom y = some b := by
  rw [asAtom_spec e] at h
  cases y with
  | more => exact h.elim
  | last hat s =>
    obtain ⟨rfl, h⟩ := h
    cases s with
    | nil => exact h.elim
    | cons b k t =>
      have h1 : k = .once := h.1 rfl
      have h2 := sLike_nil h.2
      subst h1 h2
      exact ⟨b, rfl⟩

theorem asSq_like {x y : Alts} {s : Sq} (h : aLike x y) (e : asSq x = some s) : ∃ t, asSq y = some t ∧ sLike s t := by
  rw [asSq_spec e] at h
  cases y with
  | more => exact h.elim
  | last hat t => obtain ⟨rfl, h⟩ := h; exact ⟨t, rfl, h⟩

theorem repReads_like {om om' : Option Alts} {q q' : Option Quant} {os os' : Option Sq} {x : Alts} (e : repReads om q os = some x)
    (h1 : ∀ m, om = some m → ∃ m', om' = some m' ∧ aLike m m') (h2 : ∀ k, q = some k → ∃ k', q' = some k' ∧ (k = .once → k' = .once))
    (h3 : ∀ s, os = some s → ∃ s', os' = some s' ∧ sLike s s') : ∃ y, repReads om' q' os' = some y ∧ aLike x y := by
  cases om with
  | none => cases e
  | some m =>
    cases q with
    | none => cases e
    | some k =>
      cases os with
      | none => cases e
      | some s =>
        obtain ⟨m', rfl, l1⟩ := h1 m rfl
        obtain ⟨k', rfl, l2⟩ := h2 k rfl
        obtain ⟨s', rfl, l3⟩ := h3 s rfl
        simp only [repReads, Option.map_eq_some_iff] at e ⊢
        obtain ⟨a, ha, rfl⟩ := e
        obtain ⟨b, hb⟩ := asAtom_like l1 ha
        exact ⟨_, ⟨b, hb, rfl⟩, rfl, l2, l3⟩

theorem quantOf_mode {lo hi : Nat} {m : QMode} (m' : QMode) {k : Quant} (h : quantOf lo hi m = some k) : ∃ k', quantOf lo hi m' = some k' ∧ (k = .once → k' = .once) := by
  unfold quantOf at h ⊢
  repeat' split at h
  all_goals first
    | (cases h; done)
    | (cases h; simp_all)

mutual
theorem reads_opt : ∀ (t : Node) (inj : List (List Ch)) (x : Alts), reads t = some x → ∃ y, reads (opt t inj) = some y ∧ aLike x y
  | .exact s d, inj, x, h => by
    simp only [reads] at h
    split at h
    · rename_i hc
      cases h
      exact ⟨_, by rw [opt, reads, if_pos ⟨rfl, hc.2⟩], aLike_refl _⟩
    · cases h
  | .range a b d, inj, x, h => by
    simp only [reads] at h
    split at h
    · rename_i hc
      cases h
      exact ⟨_, by rw [opt, reads, if_pos ⟨rfl, hc.2⟩], aLike_refl _⟩
    · cases h
  | .space, inj, x, h => ⟨x, h, aLike_refl _⟩
  | .word, inj, x, h => ⟨x, h, aLike_refl _⟩
  | .any, inj, x, h => ⟨x, h, aLike_refl _⟩
  | .bos, inj, x, h => ⟨x, h, aLike_refl _⟩
  | .eol, inj, x, h => ⟨x, h, aLike_refl _⟩
  | .negated m, inj, x, h => by
    cases m with
    | exact s d =>
      simp only [reads] at h
      split at h
      · rename_i hc
        cases h
        exact ⟨_, by rw [opt, opt, reads, if_pos ⟨rfl, hc.2⟩], aLike_refl _⟩
      · cases h
    | word => exact ⟨x, h, aLike_refl _⟩
    | space => exact ⟨x, h, aLike_refl _⟩
    | _ => cases h
  | .simple m [], inj, x, h => by
    simp only [reads, conts] at h
    cases e : reads m with
    | none => simp [e] at h
    | some z =>
      obtain ⟨y, hy, l⟩ := reads_opt m inj z e
      cases z with
      | more => simp [e] at h
      | last hat s =>
        simp only [e, Option.map_eq_some_iff] at h
        obtain ⟨r, hr, rfl⟩ := h
        refine ⟨y, by simpa only [opt] using hy, ?_⟩
        cases y with
        | more => exact l.elim
        | last hat' t =>
          obtain ⟨r', hr', l'⟩ := appSq_like l.2 (sLike_refl (.nil false)) hr
          have : appSq t (.nil false) = some t := by
            clear hr' l hy
            induction t using Sq.rec (motive_1 := fun _ => True) (motive_3 := fun _ => True) with
            | nil d => cases d <;> rfl
            | cons a k s _ ih => simp only [appSq, ih, Option.map_some]
            | _ => trivial
          rw [this] at hr'; cases hr'
          exact ⟨l.1, l'⟩
  | .simple m (c :: cs), inj, x, h => by
    simp only [reads] at h
    simp only [opt, reads]
    cases e : reads m with
    | none => simp [e] at h
    | some z =>
      obtain ⟨y, hy, l⟩ := reads_opt m inj z e
      cases z with
      | more => simp [e] at h
      | last hat s =>
        cases e2 : conts (c :: cs) with
        | none => simp [e, e2] at h
        | some s2 =>
          simp only [e, e2, Option.map_eq_some_iff] at h
          obtain ⟨r, hr, rfl⟩ := h
          cases y with
          | more => exact l.elim
          | last hat' t =>
            obtain ⟨s3, e3, l3⟩ := conts_opt (c :: cs) s2 e2
            obtain ⟨r', hr', l'⟩ := appSq_like l.2 l3 hr
            rw [hy, show (opt c [] :: opts cs) = opts (c :: cs) from rfl, e3]
            simp only [hr', Option.map_some]
            exact ⟨_, rfl, l.1, l'⟩
  | .alt [], inj, x, h => by cases h
  | .alt [c], inj, x, h => by
    simp only [reads] at h
    simpa only [opt] using reads_opt c inj x h
  | .alt (c :: d :: cs), inj, x, h => by
    simp only [reads] at h
    cases e : reads c with
    | none => simp [e] at h
    | some z =>
      cases e2 : branches (d :: cs) with
      | none => simp [e, e2] at h
      | some bs =>
        simp only [e, e2, Option.some.injEq] at h
        subst h
        obtain ⟨y, hy, _⟩ := reads_opt c [] z e
        obtain ⟨bs', hb⟩ := branches_opt (d :: cs) bs e2
        refine ⟨.more false (branch y) bs', ?_, trivial⟩
        have hb : branches (opt d [] :: opts cs) = some bs' := hb
        simp only [opt, reads, hy, hb]
  | .greedy m lo hi cs, inj, x, h => by
    simp only [reads] at h
    have key : ∀ md, ∃ y, repReads (reads (opt m [])) (quantOf lo hi md) (conts (opts cs)) = some y ∧ aLike x y := fun md =>
      repReads_like h (fun z e => reads_opt m [] z e) (fun k e => quantOf_mode md e) (fun s e => conts_opt cs s e)
    simp only [opt]
    split
    · exact key .possessive
    · exact key .greedy
  | .lazy m lo hi cs, inj, x, h => by
    simp only [reads] at h
    have key : ∀ md, ∃ y, repReads (reads (opt m [])) (quantOf lo hi md) (conts (opts cs)) = some y ∧ aLike x y := fun md =>
      repReads_like h (fun z e => reads_opt m [] z e) (fun k e => quantOf_mode md e) (fun s e => conts_opt cs s e)
    simp only [opt]
    split
    · exact key .possessive
    · exact key .lazy
  | .possessive m lo hi cs, inj, x, h => by
    simp only [reads] at h
    simp only [opt, reads]
    exact repReads_like h (fun z e => reads_opt m [] z e) (fun k e => quantOf_mode _ e) (fun s e => conts_opt cs s e)
  | .repeated m n cs, inj, x, h => by
    simp only [reads] at h
    simp only [opt, reads]
    exact repReads_like h (fun z e => reads_opt m [] z e) (fun k e => ⟨k, e, id⟩) (fun s e => conts_opt cs s e)
  | .group m j cs, inj, x, h => by
    simp only [reads] at h
    split at h
    · rename_i hl
      cases e : reads m with
      | none => simp [e] at h
      | some z =>
        cases e2 : conts cs with
        | none => simp [e, e2] at h
        | some s =>
          simp only [e, e2, Option.some.injEq] at h
          subst h
          obtain ⟨y, hy, _⟩ := reads_opt m (admSets cs ++ inj) z e
          obtain ⟨s', hs, l⟩ := conts_opt cs s e2
          have hl' : (opts cs).length ≤ 1 := by
            cases cs with
            | nil => simp [opts]
            | cons c cs => cases cs with
              | nil => simp [opts]
              | cons => simp at hl
          simp only [opt, reads, if_pos hl', hy, hs]
          exact ⟨_, rfl, rfl, id, l⟩
    · cases h
theorem conts_opt : ∀ (cs : List Node) (s : Sq), conts cs = some s → ∃ s', conts (opts cs) = some s' ∧ sLike s s'
  | [], s, h => ⟨s, h, sLike_refl _⟩
  | [c], s, h => by
    simp only [conts, Option.bind_eq_some_iff] at h
    obtain ⟨x, hx, hs⟩ := h
    obtain ⟨y, hy, l⟩ := reads_opt c [] x hx
    obtain ⟨t, ht, l'⟩ := asSq_like l hs
    exact ⟨t, by simp only [opts, conts, hy, Option.bind_some, ht], l'⟩
  | c :: d :: cs, s, h => by
    simp only [conts] at h
    cases e : reads c with
    | none => simp [e] at h
    | some z =>
      cases e2 : branches (d :: cs) with
      | none => simp [e, e2] at h
      | some bs =>
        simp only [e, e2, Option.some.injEq] at h
        subst h
        obtain ⟨y, hy, _⟩ := reads_opt c [] z e
        obtain ⟨bs', hb⟩ := branches_opt (d :: cs) bs e2
        rw [show opts (c :: d :: cs) = opt c [] :: opt d [] :: opts cs from rfl]
        simp only [conts, hy, show (opt d [] :: opts cs) = opts (d :: cs) from rfl, hb]
        exact ⟨_, rfl, id, rfl⟩
theorem branches_opt : ∀ (cs : List Node) (x : Alts), branches cs = some x → ∃ y, branches (opts cs) = some y
  | [], x, h => by cases h
  | [c], x, h => by
    simp only [branches, Option.map_eq_some_iff] at h
    obtain ⟨z, hz, rfl⟩ := h
    obtain ⟨y, hy, _⟩ := reads_opt c [] z hz
    exact ⟨.last false (branch y), by simp only [opts, branches, hy, Option.map_some]⟩
  | c :: d :: cs, x, h => by
    simp only [branches] at h
    cases e : reads c with
    | none => simp [e] at h
    | some z =>
      cases e2 : branches (d :: cs) with
      | none => simp [e, e2] at h
      | some bs =>
        obtain ⟨y, hy, _⟩ := reads_opt c [] z e
        obtain ⟨bs', hb⟩ := branches_opt (d :: cs) bs e2
        rw [show opts (c :: d :: cs) = opt c [] :: opt d [] :: opts cs from rfl]
        simp only [branches, hy, show (opt d [] :: opts cs) = opts (d :: cs) from rfl, hb]
        exact ⟨_, rfl⟩
end

theorem appSq_nil : ∀ t : Sq, appSq t (.nil false) = some t
  | .nil false => rfl
  | .nil true => rfl
  | .cons a k s => by simp only [appSq, appSq_nil s, Option.map_some]

theorem trees_some : ∀ (as : Alts) (gi : Nat), as.trees gi ≠ []
  | .last .., _ => by simp [Alts.trees]
  | .more .., _ => by simp [Alts.trees]

/-! ## the first round -/

theorem all_branches : ∀ (cs : List Node), cs ≠ [] → (∀ c ∈ cs, ∀ inj, ∃ y, reads (opt c inj) = some y) → ∃ y, branches (opts cs) = some y
  | [], h, _ => absurd rfl h
  | [c], _, h => by
    obtain ⟨y, hy⟩ := h c (by simp) []
    exact ⟨.last false (branch y), by simp only [opts, branches, hy, Option.map_some]⟩
  | c :: d :: cs, _, h => by
    obtain ⟨y, hy⟩ := h c (by simp) []
    obtain ⟨bs, hb⟩ := all_branches (d :: cs) (by simp) (fun x hx => h x (List.mem_cons_of_mem _ hx))
    have hb : branches (opt d [] :: opts cs) = some bs := hb
    exact ⟨.more false (branch y) bs, by simp only [opts, branches, hy, hb]⟩

theorem all_alt {cs : List Node} (hne : cs ≠ []) (h : ∀ c ∈ cs, ∀ inj, ∃ y, reads (opt c inj) = some y) (inj : List (List Ch)) :
    ∃ y, reads (opt (.alt cs) inj) = some y := by
  cases cs with
  | nil => exact absurd rfl hne
  | cons c cs =>
    cases cs with
    | nil => simpa only [opt] using h c (by simp) inj
    | cons d cs =>
      obtain ⟨y, hy⟩ := h c (by simp) []
      obtain ⟨bs, hb⟩ := all_branches (d :: cs) (by simp) (fun x hx => h x (List.mem_cons_of_mem _ hx))
      have hb : branches (opt d [] :: opts cs) = some bs := hb
      exact ⟨.more false (branch y) bs, by simp only [opt, reads, hy, hb]⟩

theorem exact_reads {c : Int} (d : List Int) (h : plainB c = true) (inj : List (List Ch)) : reads (opt (.exact [c] d) inj) = some (ofAtom (.chr c)) := by
  rw [opt, reads, if_pos ⟨rfl, by simp, by simp [h]⟩]
  rfl

/-- The node of an escape. -/
theorem esc_reads {c : Int} (h : escPrints c = true) (hk : escB c = true) (inj : List (List Ch)) : ∃ b, reads (opt ((terminalOf [92, c]).getD .any) inj) = some (ofAtom b) := by
  simp only [escPrints, Bool.or_eq_true, List.contains_iff_mem] at h
  by_cases h1 : c = 97
  · subst h1; exact ⟨_, exact_reads _ (by decide) inj⟩
  by_cases h2 : c = 114
  · subst h2; exact ⟨_, exact_reads _ (by decide) inj⟩
  by_cases h3 : c = 101
  · subst h3; exact ⟨_, exact_reads _ (by decide) inj⟩
  by_cases h4 : c = 102
  · subst h4; exact ⟨_, exact_reads _ (by decide) inj⟩
  by_cases h5 : c = 110
  · subst h5; exact ⟨_, exact_reads _ (by decide) inj⟩
  by_cases h6 : c = 116
  · subst h6; exact ⟨_, exact_reads _ (by decide) inj⟩
  by_cases h7 : c = 100
  · subst h7; exact ⟨.cls false [.rng 48 57] false, rfl⟩
  by_cases h8 : c = 115
  · subst h8; exact ⟨.esc 115, rfl⟩
  by_cases h9 : c = 119
  · subst h9; exact ⟨.esc 119, rfl⟩
  have hp : plainB c = true := by
    rcases h with h | h
    · simp_all
    · exact h
  have ht : terminalOf [92, c] = some (.exact [c] [92, c]) := by
    simp only [escB, Bool.and_eq_true, Bool.not_eq_true', List.contains_eq_mem, decide_eq_false_iff_not, List.mem_cons, not_or] at hk
    unfold terminalOf
    split <;> simp_all
  rw [ht]
  exact ⟨_, exact_reads _ hp inj⟩

theorem item_reads {i : Item} (h : i.prints = true) (hk : i.ok = true) (inj : List (List Ch)) : ∃ b, reads (opt (itemTree i) inj) = some (ofAtom b) := by
  cases i with
  | chr c => exact ⟨_, by rw [itemTree, opt]; exact exact_reads _ h inj⟩
  | esc c => rw [itemTree, opt]; exact esc_reads h hk inj
  | rng a b =>
    refine ⟨.cls false [.rng a b] false, ?_⟩
    rw [itemTree, opt, opt, reads, if_pos ⟨rfl, hk⟩]

theorem neg_exact {c : Int} (d : List Int) (h : classB c = true) (inj : List (List Ch)) : reads (opt (.negated (.alt [.simple (.exact [c] d) []])) inj) = some (ofAtom (.cls true [.chr c] false)) := by
  rw [opt, opt, opt, opt, reads, if_pos ⟨rfl, rfl, by simp [h]⟩]
  rfl

theorem neg_esc {c : Int} (h : ([97, 114, 101, 102, 110, 116, 115, 119].contains c || (classB c && c != 100)) = true) (hk : escB c = true) (inj : List (List Ch)) :
    ∃ b, reads (opt (.negated (.alt [.simple ((terminalOf [92, c]).getD .any) []])) inj) = some (ofAtom b) := by
  by_cases h1 : c = 97
  · subst h1; exact ⟨_, neg_exact _ (by decide) inj⟩
  by_cases h2 : c = 114
  · subst h2; exact ⟨_, neg_exact _ (by decide) inj⟩
  by_cases h3 : c = 101
  · subst h3; exact ⟨_, neg_exact _ (by decide) inj⟩
  by_cases h4 : c = 102
  · subst h4; exact ⟨_, neg_exact _ (by decide) inj⟩
  by_cases h5 : c = 110
  · subst h5; exact ⟨_, neg_exact _ (by decide) inj⟩
  by_cases h6 : c = 116
  · subst h6; exact ⟨_, neg_exact _ (by decide) inj⟩
  by_cases h8 : c = 115
  · subst h8; exact ⟨.cls true [.esc 115] false, rfl⟩
  by_cases h9 : c = 119
  · subst h9; exact ⟨.cls true [.esc 119] false, rfl⟩
  have hp : classB c = true ∧ c ≠ 100 := by
    simp only [Bool.or_eq_true, List.contains_iff_mem, Bool.and_eq_true, bne_iff_ne] at h
    rcases h with h | h
    · simp_all
    · exact h
  have ht : terminalOf [92, c] = some (.exact [c] [92, c]) := by
    simp only [escB, Bool.and_eq_true, Bool.not_eq_true', List.contains_eq_mem, decide_eq_false_iff_not, List.mem_cons, not_or] at hk
    unfold terminalOf
    split <;> simp_all
  rw [ht]
  exact ⟨_, neg_exact _ hp.1 inj⟩

/-- A node without children that reads as an atom, or a group. -/
def AtomReads (n : Node) : Prop :=
  (∃ x, n = .simple x [] ∧ ∀ inj, ∃ b, reads (opt x inj) = some (ofAtom b)) ∨ ∃ x j, n = .group x j [] ∧ ∀ inj, ∃ y, reads (opt x inj) = some y

theorem AtomReads.atom {n : Node} (h : AtomReads n) (inj : List (List Ch)) : ∃ b, reads (opt n inj) = some (ofAtom b) := by
  rcases h with ⟨x, rfl, h⟩ | ⟨x, j, rfl, h⟩
  · simpa only [opt] using h inj
  · obtain ⟨y, hy⟩ := h (admSets [] ++ inj)
    exact ⟨.group true y, by simp only [opt, opts, reads, List.length_nil, Nat.zero_le, if_true, hy, conts]; rfl⟩

/-- What is read behind a node. -/
def Trails (o : Option Node) (s : Sq) : Prop := ∃ s', conts (opts o.toList) = some s' ∧ (s.onward = true → s'.onward = true)

theorem app_onward : ∀ (s t : Sq), s.onward = true → ∃ r, appSq s t = some r ∧ (t.onward = true → r.onward = true)
  | .nil false, t, _ => ⟨t, rfl, id⟩
  | .nil true, t, h => (by cases h)
  | .cons a k s, t, h => by
    obtain ⟨r, h1, h2⟩ := app_onward s t h
    exact ⟨.cons a k r, by simp only [appSq, h1, Option.map_some], h2⟩

theorem bound_nat {n : List Int} (h : boundB n = true) : (decimal n).toNat < umax ∧ 0 ≤ decimal n := by
  simp only [boundB, Bool.and_eq_true, decide_eq_true_eq] at h
  have h0 : 0 ≤ decimal n := by
    have : ∀ (l : List Int) (a : Int), l.all digitB = true → 0 ≤ a → 0 ≤ l.foldl (fun acc c => 10 * acc + (c - 48)) a := by
      intro l
      induction l with
      | nil => intro a _ ha; simpa using ha
      | cons c l ih =>
        intro a hl ha
        simp only [List.all_cons, Bool.and_eq_true] at hl
        have := hl.1; simp [digitB] at this
        exact ih _ hl.2 (show (0 : Int) ≤ 10 * a + (c - 48) by omega)
    exact this n 0 h.1.2 (Int.le_refl _)
  exact ⟨by simp only [umax]; omega, h0⟩

theorem rep_reads {n : Node} (h : AtomReads n) {k : Quant} (hk : k.ok = true) (hp : k.prints = true) (ho : k.isOnce = false) {o : Option Node} {s : Sq} (hr : Trails o s) (inj : List (List Ch)) :
    ∃ s', reads (opt (graft (quantTree n k) o) inj) = some (.last false s') ∧ (s.onward = true → s'.onward = true) := by
  obtain ⟨s2, h1, h2⟩ := hr
  obtain ⟨b, hb⟩ := h.atom []
  have key : ∀ (q : Quant), ∃ s', repReads (reads (opt n [])) (some q) (conts (opts o.toList)) = some (.last false s') ∧ (s.onward = true → s'.onward = true) :=
    fun q => ⟨.cons b q s2, by simp only [hb, h1, repReads, asAtom, ofAtom, Option.map_some], h2⟩
  have pol : ∀ (md : QMode) (lo hi : Nat), (∀ m', ∃ q, quantOf lo hi m' = some q) →
      ∃ s', reads (opt (graft ((polOf md).node n lo hi) o) inj) = some (.last false s') ∧ (s.onward = true → s'.onward = true) := by
    intro md lo hi hq
    have e : ∀ cs, o.toList = cs → conts (opts cs) = conts (opts o.toList) := by rintro _ rfl; rfl
    have g : ∀ md', ∃ s', repReads (reads (opt n [])) (quantOf lo hi md') (conts (opts o.toList)) = some (.last false s') ∧ (s.onward = true → s'.onward = true) := by
      intro md'
      obtain ⟨q, hq⟩ := hq md'
      rw [hq]; exact key q
    cases md with
    | greedy =>
      have : graft ((polOf .greedy).node n lo hi) o = .greedy n lo hi o.toList := by cases o <;> rfl
      rw [this, opt]
      split
      · rw [reads]; exact g .possessive
      · rw [reads]; exact g .greedy
    | «lazy» =>
      have : graft ((polOf .lazy).node n lo hi) o = .lazy n lo hi o.toList := by cases o <;> rfl
      rw [this, opt]
      split
      · rw [reads]; exact g .possessive
      · rw [reads]; exact g .lazy
    | possessive =>
      have : graft ((polOf .possessive).node n lo hi) o = .possessive n lo hi o.toList := by cases o <;> rfl
      rw [this, opt, reads]; exact g .possessive
  cases k with
  | once => cases ho
  | star md => exact pol md 0 umax (fun m' => ⟨_, rfl⟩)
  | plus md => exact pol md 1 umax (fun m' => ⟨_, rfl⟩)
  | opt md => exact pol md 0 1 (fun m' => ⟨_, rfl⟩)
  | exact d md =>
    obtain ⟨b1, b2⟩ := bound_nat hk
    simp only [Quant.prints, decide_eq_true_eq] at hp
    have : graft (quantTree n (.exact d md)) o = .repeated n (decimal d).toNat o.toList := by cases o <;> rfl
    rw [this, opt, reads, if_neg (by omega)]
    exact key _
  | atLeast d md =>
    obtain ⟨b1, b2⟩ := bound_nat hk
    refine pol md _ umax (fun m' => ?_)
    unfold quantOf
    repeat' split
    all_goals first | exact ⟨_, rfl⟩ | omega
  | between d e md =>
    simp only [Quant.ok, Bool.and_eq_true] at hk
    obtain ⟨b1, b2⟩ := bound_nat hk.1
    obtain ⟨b3, b4⟩ := bound_nat hk.2
    simp only [Quant.prints, Bool.or_eq_true, Bool.and_eq_true, decide_eq_true_eq] at hp
    refine pol md _ _ (fun m' => ?_)
    unfold quantOf
    repeat' split
    all_goals first | exact ⟨_, rfl⟩ | omega

theorem once_reads {n : Node} (h : AtomReads n) {o : Option Node} {s : Sq} (hr : Trails o s) (inj : List (List Ch)) :
    ∃ s', reads (opt (graft n o) inj) = some (.last false s') ∧ (s.onward = true → s'.onward = true) := by
  obtain ⟨s2, h1, h2⟩ := hr
  rcases h with ⟨x, rfl, h⟩ | ⟨x, j, rfl, h⟩
  · obtain ⟨b, hb⟩ := h inj
    refine ⟨.cons b .once s2, ?_, h2⟩
    cases o with
    | none =>
      simp only [Option.toList, opts, conts, Option.some.injEq] at h1
      subst h1
      rw [graft, opt]; exact hb
    | some c =>
      have e : graft (.simple x []) (some c) = .simple x [c] := rfl
      have h1 : conts (opt c [] :: opts []) = some s2 := h1
      simp only [e, opt, reads, hb, ofAtom, h1, appSq, Option.map_some]
  · obtain ⟨y, hy⟩ := h (admSets o.toList ++ inj)
    refine ⟨.cons (.group true y) .once s2, ?_, h2⟩
    have e : graft (.group x j []) o = .group x j o.toList := by cases o <;> rfl
    have hl : (opts o.toList).length ≤ 1 := by cases o <;> simp [opts]
    simp only [e, opt, reads, if_pos hl, hy, h1]

mutual
theorem atom_reads : ∀ (a : Atom), a.ok = true → a.prints false = true → ∀ gi, AtomReads (a.tree gi).1
  | .chr c, hk, h, gi => .inl ⟨_, rfl, fun inj => ⟨_, exact_reads _ hk inj⟩⟩
  | .esc c, hk, h, gi => .inl ⟨_, rfl, fun inj => esc_reads h hk inj⟩
  | .dot, hk, h, gi => .inl ⟨_, rfl, fun inj => ⟨.dot, rfl⟩⟩
  | .hex x y, hk, h, gi => by
    simp only [Atom.ok, Bool.and_eq_true] at hk
    exact .inl ⟨_, rfl, fun inj => ⟨_, exact_reads _ (by rw [hexPair_byte hk.1 hk.2]; exact h) inj⟩⟩
  | .oct x y z, hk, h, gi => by
    simp only [Atom.ok, Bool.and_eq_true] at hk
    exact .inl ⟨_, rfl, fun inj => ⟨_, exact_reads _ (by rw [octTriple_byte hk.1.1 hk.1.2 hk.2]; exact h) inj⟩⟩
  | .cls neg items dash, hk, h, gi => by
    have h : clsPrints neg items dash = true := h
    unfold clsPrints at h
    split at h
    · rename_i i
      simp only [Atom.ok, List.all_cons, List.all_nil, Bool.and_true, Bool.and_eq_true] at hk
      refine .inl ⟨_, rfl, fun inj => ?_⟩
      simp only [classTrees, List.map, Bool.false_eq_true, if_false, List.append_nil]
      rw [opt]
      exact item_reads h hk.1 inj
    · rename_i c
      simp only [Atom.ok, List.all_cons, List.all_nil, Bool.and_true, Bool.and_eq_true, Item.ok] at hk
      exact .inl ⟨_, rfl, fun inj => ⟨_, neg_exact _ hk.1 inj⟩⟩
    · rename_i c
      simp only [Atom.ok, List.all_cons, List.all_nil, Bool.and_true, Bool.and_eq_true, Item.ok] at hk
      exact .inl ⟨_, rfl, fun inj => neg_esc h hk.1 inj⟩
    · cases h
  | .group true as, hk, h, gi => .inr ⟨_, _, rfl, fun inj => all_alt (trees_some as _) (alts_reads as hk (by simpa [Atom.prints] using h) (gi + 1)) inj⟩
  | .group false as, hk, h, gi => by simp [Atom.prints] at h
theorem sq_reads : ∀ (s : Sq), s.ok = true → s.prints = true → ∀ gi c, s.tree gi = some c → ∀ inj, ∃ s', reads (opt c inj) = some (.last false s') ∧ (s.onward = true → s'.onward = true)
  | .nil false, hk, h, gi, c, e, inj => by cases e
  | .nil true, hk, h, gi, c, e, inj => by
    cases e
    exact ⟨.nil true, rfl, fun h => (by cases h)⟩
  | .cons a k s, hk, h, gi, c, e, inj => by
    simp only [Sq.ok, Bool.and_eq_true] at hk
    simp only [Sq.tree, Option.some.injEq] at e
    subst e
    have rest : s.prints = true → ∀ gi, Trails (s.tree gi) s := by
      intro hs gi
      cases e : s.tree gi with
      | none =>
        refine ⟨.nil false, rfl, fun _ => rfl⟩
      | some c =>
        obtain ⟨s', h1, h2⟩ := sq_reads s hk.2 hs gi c e []
        exact ⟨s', by simp only [Option.toList, opts, conts, h1, Option.bind_some, asSq], h2⟩
    have on : (Sq.cons a k s).onward = s.onward := rfl
    rw [on]
    simp only [Sq.prints, Bool.and_eq_true] at h
    obtain ⟨⟨ha, hkp⟩, hs⟩ := h
    cases ho : k.isOnce with
    | false =>
      rw [ho] at ha
      exact rep_reads (atom_reads a hk.1.1 ha gi) hk.1.2 hkp ho (rest hs _) inj
    | true =>
      have hone : k = .once := by cases k <;> first | rfl | cases ho
      subst hone
      simp only [quantTree]
      by_cases hg : ∃ as, a = .group false as
      · obtain ⟨as, rfl⟩ := hg
        simp only [Atom.prints, Quant.isOnce, Bool.true_and] at ha
        obtain ⟨s0, rfl, hp0⟩ : ∃ s0, as = .last false s0 ∧ (s0.prints = true ∧ s0.onward = true) ∧ s0.empty = false := by
          cases as with
          | more => cases ha
          | last hat s0 => simp only [Alts.printsOne, Bool.and_eq_true, Bool.not_eq_true'] at ha; exact ⟨s0, by rw [ha.1.1.1], ⟨ha.1.1.2, ha.1.2⟩, ha.2⟩
        have hr := rest hs ((Atom.group false (.last false s0)).tree gi).2
        have hk0 : s0.ok = true := by
          have := hk.1.1; simp only [Atom.ok, Alts.ok, Bool.and_eq_true] at this; exact this.1
        obtain ⟨c0, hc0⟩ := tree_some s0 gi hp0.2
        obtain ⟨s1, h1, h2⟩ := sq_reads s0 hk0 hp0.1.1 gi c0 hc0 inj
        obtain ⟨s2, h3, h4⟩ := hr
        obtain ⟨r, h5, h6⟩ := app_onward s1 s2 (h2 hp0.1.2)
        refine ⟨r, ?_, fun x => h6 (h4 x)⟩
        have et : ((Atom.group false (.last false s0)).tree gi).1 = .simple (.alt [c0]) [] := by simp only [Atom.tree, Alts.trees, hc0, Bool.false_eq_true, if_false, Option.getD_some]
        rw [et]
        cases e : s.tree ((Atom.group false (.last false s0)).tree gi).2 with
        | none =>
          rw [e] at h3
          simp only [Option.toList, opts, conts, Option.some.injEq] at h3
          subst h3
          have : appSq s1 (.nil false) = some s1 := appSq_nil s1
          rw [this] at h5; cases h5
          simpa only [graft, opt] using h1
        | some c =>
          rw [e] at h3
          have h3 : conts (opt c [] :: opts []) = some s2 := h3
          have eg : graft (.simple (.alt [c0]) []) (some c) = .simple (.alt [c0]) [c] := rfl
          rw [eg]
          have h7 : reads (opt (.alt [c0]) inj) = some (.last false s1) := by rw [opt]; exact h1
          simp only [opt] at h7
          simp only [opt, reads, h7, h3, h5, Option.map_some]
      · have hp : a.prints false = true := by
          cases a with
          | group c as =>
            cases c with
            | true => exact ha
            | false => exact absurd ⟨_, rfl⟩ hg
          | _ => exact ha
        exact once_reads (atom_reads a hk.1.1 hp gi) (rest hs _) inj
theorem piece_reads (hat : Bool) : ∀ (s : Sq), s.ok = true → (hat || !s.empty) = true → (s.prints || (!hat && s.alone)) = true → ∀ gi inj, ∃ y, reads (opt (pieceTree hat s gi) inj) = some y
  | s, hk, hne, h, gi, inj => by
    by_cases hp : s.prints = true
    · cases hat with
      | false =>
        obtain ⟨c, hc⟩ := tree_some s gi (by simpa using hne)
        obtain ⟨s', h1, _⟩ := sq_reads s hk hp gi c hc inj
        exact ⟨_, by simpa only [pieceTree, Bool.false_eq_true, if_false, hc, Option.getD_some] using h1⟩
      | true =>
        cases e : s.tree gi with
        | none => exact ⟨.last true (.nil false), by simp only [pieceTree, if_true, e, graft]; rfl⟩
        | some c =>
          obtain ⟨s', h1, _⟩ := sq_reads s hk hp gi c e []
          refine ⟨.last true s', ?_⟩
          have eg : graft (.simple .bos []) (some c) = .simple .bos [c] := rfl
          simp only [pieceTree, if_true, e, eg, opt, opts, reads, conts, h1, Option.bind_some, asSq, appSq, Option.map_some]
    · have hl : hat = false ∧ s.alone = true := by
        cases hat <;> simp_all
      obtain ⟨rfl, hl⟩ := hl
      unfold Sq.alone at hl
      split at hl
      case h_2 => cases hl
      rename_i a
      unfold Atom.printsAlone at hl
      split at hl
      · rename_i items dash
        simp only [Sq.ok, Atom.ok, Bool.and_eq_true, Quant.ok] at hk
        have : pieceTree false (.cons (.cls false items dash) .once (.nil false)) gi = .simple (.alt (classTrees items dash)) [] := rfl
        rw [this, opt]
        refine all_alt ?_ (fun c hc inj => ?_) inj
        · have := hk.1.1.2
          cases items <;> cases dash <;> simp_all [classTrees]
        · simp only [classTrees, List.mem_append, List.mem_map] at hc
          rcases hc with ⟨i, hi, rfl⟩ | hc
          · obtain ⟨b, hb⟩ := item_reads (List.all_eq_true.1 hl i hi) (List.all_eq_true.1 hk.1.1.1 i hi) inj
            exact ⟨_, hb⟩
          · cases dash with
            | false => simp at hc
            | true =>
              simp only [if_true, List.mem_singleton] at hc
              subst hc
              exact ⟨_, by rw [opt]; exact exact_reads _ (by decide) inj⟩
      · rename_i as
        simp only [Sq.ok, Atom.ok, Bool.and_eq_true, Quant.ok] at hk
        have : pieceTree false (.cons (.group false as) .once (.nil false)) gi = .simple (.alt (as.trees gi)) [] := rfl
        rw [this, opt]
        exact all_alt (trees_some as gi) (alts_reads as hk.1.1 hl gi) inj
      · cases hl
theorem alts_reads : ∀ (as : Alts), as.ok = true → as.prints = true → ∀ gi, ∀ c ∈ as.trees gi, ∀ inj, ∃ y, reads (opt c inj) = some y
  | .last hat s, hk, h, gi, c, hc, inj => by
    simp only [Alts.ok, Bool.and_eq_true] at hk
    simp only [Alts.prints] at h
    simp only [Alts.trees, List.mem_singleton] at hc
    subst hc
    exact piece_reads hat s hk.1 hk.2 h gi inj
  | .more hat s as, hk, h, gi, c, hc, inj => by
    simp only [Alts.ok, Bool.and_eq_true] at hk
    simp only [Alts.prints, Bool.and_eq_true] at h
    simp only [Alts.trees, List.mem_cons] at hc
    rcases hc with rfl | hc
    · exact piece_reads hat s hk.1.1 hk.1.2 h.1 gi inj
    · exact alts_reads as hk.2 h.2 gi c hc inj
end

theorem tops_reads : ∀ (as : Alts), as.ok = true → as.prints = true → ∀ gi, as.tops gi ≠ [] ∧ ∀ c ∈ as.tops gi, ∀ inj, ∃ y, reads (opt c inj) = some y
  | .last hat s, hk, h, gi => by
    simp only [Alts.ok, Bool.and_eq_true] at hk
    simp only [Alts.prints] at h
    refine ⟨by simp [Alts.tops], fun c hc inj => ?_⟩
    simp only [Alts.tops, List.mem_singleton] at hc
    subst hc
    exact piece_reads hat s hk.1 hk.2 h gi inj
  | .more hat s as, hk, h, gi => by
    simp only [Alts.ok, Bool.and_eq_true] at hk
    simp only [Alts.prints, Bool.and_eq_true] at h
    refine ⟨by simp [Alts.tops], fun c hc inj => ?_⟩
    simp only [Alts.tops, List.mem_cons] at hc
    rcases hc with rfl | hc
    · exact piece_reads hat s hk.1.1 hk.1.2 h.1 gi inj
    · exact (tops_reads as hk.2 h.2 _).2 c hc inj

/-- The compiled tree can be read back. -/
theorem prints_reads {as : Alts} (hk : as.ok = true) (h : as.prints = true) : ∃ t, compile as.spell = some t ∧ ∃ x, reads t = some x := by
  obtain ⟨h1, h2⟩ := tops_reads as hk h 0
  obtain ⟨r, hr⟩ := optimize_some as.tree
  refine ⟨r, by simp [compile, build_tree as hk, hr], ?_⟩
  obtain ⟨x, hx⟩ := all_alt h1 h2 []
  have hx : reads (opt as.tree []) = some x := hx
  obtain ⟨⟨y, hy⟩, h3⟩ := optFix_inv (P := fun t => ∃ x, reads (opt t []) = some x) (fun t ⟨x, hx⟩ => by
    obtain ⟨y, hy, _⟩ := reads_opt _ [] x hx
    exact ⟨y, hy⟩) _ _ _ ⟨x, hx⟩ hr
  rw [h3] at hy
  exact ⟨y, hy⟩

end ERegex

import Verif.Proofs.CommitActs
import Verif.Proofs.CaptureAlts
/-!
# Searching with patterns in which no choice has to be undone
-/
set_option autoImplicit false
namespace ERegex
open ERegex.Spec

section

/-- The slots of the tree of a part with `k` groups, the first with number `n`; and it stays inside the query. -/
structure SlotsAt (nul : Bool) (n k : Nat) (sl : List Nat) (sf : Bool) : Prop where
  len : sl.length = k
  mem : ∀ j ∈ sl, n ≤ j ∧ j < n + k
  safe : sf = true

theorem slots_atomic {a : Atom} (hg : ∀ c as, a ≠ .group c as) {m : Node} (h : Atomic a m) (nul : Bool) (n : Nat) : SlotsAt nul n a.count (slots m) (safe nul m) := by
  rw [h.noslot, (atom_flat hg).2.2]
  exact ⟨rfl, by simp, atomic_safe h nul⟩

theorem slots_joined {ms : List Node} {x : Node} (h : Joined ms x) (nul : Bool) : slots x = slotss ms ∧ safe nul x = safes nul ms := by
  rcases h with rfl | rfl
  · simp [slots, safe]
  · simp [slotss, safes]

theorem slots_piece {hat : Bool} {s : Sq} {n : Nat} {nul : Bool} {m : Node} (h : PieceFit hat (s.Fit true n) m)
    (ih : ∀ cs, s.Fit true n cs → SlotsAt nul n s.count (slotss cs) (safes nul cs)) : SlotsAt nul n s.count (slots m) (safe nul m) := by
  cases hat with
  | true =>
    obtain ⟨cs, _, h1, rfl⟩ := h
    have := ih cs h1
    exact ⟨by simpa [slots] using this.len, by simpa [slots] using this.mem, by simpa [safe] using this.safe⟩
  | false =>
    have := ih [m] h
    exact ⟨by simpa [slotss] using this.len, by simpa [slotss] using this.mem, by simpa [safes] using this.safe⟩

theorem slots_hang {a : Atom} {k : Quant} {s : Sq} {n : Nat} {nul : Bool} {m nd : Node} {ds : List Node} (h : Hangs true a k s m ds nd)
    (h1 : SlotsAt nul n a.count (slots m) (ERegex.safe nul m)) (h2 : SlotsAt nul (n + a.count) s.count (slotss ds) (safes nul ds)) :
    SlotsAt nul n (a.count + s.count) (slots nd) (ERegex.safe nul nd) := by
  have key : ∀ (nd : Node), (slots nd = slots m ++ slotss ds) → (ERegex.safe nul nd = (ERegex.safe nul m && safes nul ds)) →
      SlotsAt nul n (a.count + s.count) (slots nd) (ERegex.safe nul nd) := by
    intro nd e1 e2
    refine ⟨by rw [e1, List.length_append, h1.len, h2.len], fun j hj => ?_, ?_⟩
    · rw [e1, List.mem_append] at hj
      rcases hj with hj | hj
      · have := h1.mem j hj; omega
      · have := h2.mem j hj; omega
    · rw [e2, h1.safe, h2.safe]; rfl
  unfold Hangs at h
  split at h
  · rcases h with ⟨rfl, rfl⟩ | ⟨_, rfl⟩ | ⟨_, x, j, rfl, rfl⟩
    · exact key nd (by simp [slotss]) (by simp [safes])
    · exact key _ (by simp [slots]) (by simp [safe])
    · exact key _ (by simp [slots, slotss]) (by simp [safe, safes])
  · split at h
    · subst h
      exact key _ (by simp [slots]) (by simp [safe])
    · rcases h with ⟨_, hs, rfl⟩ | ⟨h, _⟩ | rfl
      · exact key _ (by simp [slots]) (by
          have hs := hs rfl
          simp only [soft, Bool.and_eq_true, Bool.not_eq_true'] at hs
          have := hiN_ends hs.1.1.2
          simp only [safe]
          simp_all)
      · cases h
      · exact key _ (by simp [slots]) (by simp [safe])

mutual
theorem atom_slots_fit (nul : Bool) : ∀ (a : Atom) (n : Nat) (m : Node), a.Fit true n m → (a.dollars = true → nul = true) → SlotsAt nul n a.count (slots m) (ERegex.safe nul m)
  | .group true as, n, m, h, hn => by
    obtain ⟨x, ms, rfl, h1, h2⟩ := h
    have ih := row_slots_fit nul as (n + 1) ms h1 hn
    obtain ⟨e1, e3⟩ := slots_joined h2 nul
    have hc : (Atom.group true as).count = 1 + as.count := by simp [Atom.count, Nat.add_comm]
    rw [hc]
    refine ⟨by simp [slots, slotss, e1, ih.len, Nat.add_comm], fun j hj => ?_, ?_⟩
    · simp only [slots, slotss, List.append_nil, e1, List.mem_cons] at hj
      rcases hj with rfl | hj
      · omega
      · have := ih.mem j hj; omega
    · simp [safe, safes, e3, ih.safe]
  | .group false as, n, m, h, hn => by
    obtain ⟨x, ms, hm, h1, h2⟩ := h
    have ih := row_slots_fit nul as n ms h1 hn
    obtain ⟨e1, e3⟩ := slots_joined h2 nul
    have hc : (Atom.group false as).count = as.count := by simp [Atom.count]
    rw [hc]
    rcases hm with rfl | rfl
    · rw [e1, e3]; exact ih
    · simp only [slots, slotss, safe, safes, List.append_nil, Bool.and_true, e1, e3]; exact ih
  | .chr x, n, m, h, _ => slots_atomic (by simp) h nul n
  | .esc x, n, m, h, _ => slots_atomic (by simp) h nul n
  | .dot, n, m, h, _ => slots_atomic (by simp) h nul n
  | .hex x y, n, m, h, _ => slots_atomic (by simp) h nul n
  | .oct x y z, n, m, h, _ => slots_atomic (by simp) h nul n
  | .cls neg items dash, n, m, h, _ => slots_atomic (by simp) h nul n
theorem sq_slots_fit (nul : Bool) : ∀ (s : Sq) (n : Nat) (cs : List Node), s.Fit true n cs → (s.dollars = true → nul = true) → SlotsAt nul n s.count (slotss cs) (safes nul cs)
  | .nil false, n, cs, h, hn => by
    have h : cs = [] := h
    subst h
    exact ⟨rfl, by simp [slotss], by simp [safes]⟩
  | .nil true, n, cs, h, hn => by
    have := hn rfl
    subst this
    rcases h with rfl | rfl <;> exact ⟨rfl, by simp [slotss, slots], by simp [safes, safe]⟩
  | .cons a k s, n, cs, h, hn => by
    simp only [Sq.dollars, Bool.or_eq_true] at hn
    rcases h with ⟨m, ds, nd, rfl, h1, h2, h3⟩ | ⟨_, hk, hle, m, lo, hi, ds, rfl, h1, h2⟩
    case inr =>
      have i1 := atom_slots_fit nul a n _ h1 (fun h => hn (.inl h))
      have i2 := sq_slots_fit nul s _ ds h2 (fun h => hn (.inr h))
      obtain ⟨_, _, hlax, _⟩ := lends_shape hle h1
      have l1 := i1.len
      have m1 := i1.mem
      have s1 := i1.safe
      simp only [slots, slotss, List.append_nil] at l1 m1
      simp only [safe, safes, Bool.and_true] at s1
      refine ⟨?_, fun j hj => ?_, ?_⟩
      · simp only [Sq.count, slotss, slots, List.append_nil, List.length_append, List.length_cons, i2.len] at l1 ⊢
        omega
      · simp only [Sq.count, slotss, slots, List.append_nil, List.cons_append, List.mem_cons, List.mem_append] at hj m1 ⊢
        rcases hj with hj | hj | hj
        · have := m1 j (.inl hj); omega
        · have := m1 j (.inr hj); omega
        · have := i2.mem j hj; omega
      · simp only [safes, safe, s1, i2.safe, Bool.and_true, Bool.true_and]
        simp_all
    have := slots_hang h3 (atom_slots_fit nul a n m h1 (fun h => hn (.inl h))) (sq_slots_fit nul s _ ds h2 (fun h => hn (.inr h)))
    simpa only [Sq.count, slotss, safes, List.append_nil, Bool.and_true] using this
theorem row_slots_fit (nul : Bool) : ∀ (as : Alts) (n : Nat) (ms : List Node), as.Row true n ms → (as.dollars = true → nul = true) → SlotsAt nul n as.count (slotss ms) (safes nul ms)
  | .last hat s, n, ms, h, hn => by
    obtain ⟨m, rfl, h1⟩ := h
    have := slots_piece h1 (fun cs hcs => sq_slots_fit nul s n cs hcs hn)
    simpa only [Alts.count, slotss, safes, List.append_nil, Bool.and_true] using this
  | .more hat s as, n, ms, h, hn => by
    obtain ⟨m, ms', rfl, h1, h2⟩ := h
    simp only [Alts.dollars, Bool.or_eq_true] at hn
    have i1 := slots_piece h1 (fun cs hcs => sq_slots_fit nul s n cs hcs (fun h => hn (.inl h)))
    have i2 := row_slots_fit nul as _ ms' h2 (fun h => hn (.inr h))
    have hc : (Alts.more hat s as).count = s.count + as.count := rfl
    rw [hc]
    refine ⟨by simp [slotss, i1.len, i2.len], fun j hj => ?_, ?_⟩
    · simp only [slotss, List.mem_append] at hj
      rcases hj with hj | hj
      · have := i1.mem j hj; omega
      · have := i2.mem j hj; omega
    · simp [safes, i1.safe, i2.safe]
end

/-! ## attempts -/

section
variable {cx : Ctx} {as : Alts} {t : Node} {ms : List Node}

theorem fit_safe (hrow : as.Row true 0 ms) (hj : Joined ms t) (hst : strict t = true) (hn : as.dollars = true → cx.post.head? = some 0) : SafeTree cx t ∧ groupsOf t = as.count := by
  have h := row_slots_fit as.dollars as 0 ms hrow id
  obtain ⟨e1, e3⟩ := slots_joined hj as.dollars
  have hcount : groupsOf t = as.count := by rw [groups_slots, e1, h.len]
  refine ⟨safeTree hn (by rw [e3]; exact h.safe) (fun i hi => ?_), hcount⟩
  rw [e1] at hi
  have := h.mem i hi
  omega

theorem committed_facts (h : as.committed = true) : as.ok = true ∧ as.plainly = true ∧ as.aligned 0 0 = true ∧ as.commits true (fun _ => false) = true ∧ (as.forced = true ∨ as.mute = true ∨ as.atFront = true) := by
  simp only [Alts.committed, Bool.and_eq_true, Bool.or_eq_true, or_assoc] at h
  obtain ⟨⟨⟨⟨⟨⟨h1, h2⟩, h3⟩, h4⟩, h5⟩, _⟩, _⟩ := h
  exact ⟨h1, h2, h3, h4, h5⟩

/-- The preferred way is the one the matcher without backtracking takes. -/
theorem committed_head (hq : ∀ c ∈ cx.query, c ∈ allChars) (h : as.commits true (fun _ => false) = true) {i : Nat} (hi : i ≤ cx.query.length) (c : Caps) :
    (as.ways cx.query 0 i c).head? = as.go cx.query 0 i c := (commit_alts hq as true _ h 0 i c hi).head

theorem committed_some (hq : ∀ c ∈ cx.query, c ∈ allChars) (h : as.commits true (fun _ => false) = true) {i : Nat} (hi : i ≤ cx.query.length) (c : Caps) :
    as.ways cx.query 0 i c ≠ [] ↔ as.go cx.query 0 i c ≠ none := by
  rw [← committed_head hq h hi]; cases as.ways cx.query 0 i c <;> simp

/-- `^…` matches at the begin only. -/
theorem front_only {as : Alts} (h : as.atFront = true) {q : List Int} {x : Nat} {c : Caps} (hx : x ≠ 0) : as.ways q 0 x c = [] := by
  cases as with
  | last hat s =>
    simp only [Alts.atFront] at h
    subst h
    simp [Alts.ways, hx]
  | more => cases h

/-- The captures left by failed attempts do not matter: every group takes part in every match, or there are none, or there is nothing to match any more. -/
def Carries (as : Alts) (x : Nat) (gs : List (Option (Int × Int))) : Prop := as.forced = true ∨ (∀ v ∈ gs, v = none) ∨ (as.atFront = true ∧ x ≠ 0)

/-- One attempt, from a state in which the captures of earlier attempts may be left if every group takes part in every match. -/
theorem committed_try (hc : as.committed = true) (hrow : as.Row true 0 ms) (hj : Joined ms t) (hst : strict t = true) (hlen : cx.query.length < umax)
    (hq : ∀ c ∈ cx.query, c ∈ allChars) (hn : as.dollars = true → cx.post.head? = some 0) {P : Par} {st st' : St} (hg : Good cx P st)
    (hlg : st.groups.length = as.count) (hlg' : st'.groups.length = as.count) (hb : Carries as (off st) st.groups) (e : run cx t [] st = some st') :
    OutG false cx.query (off st) st st' (as.go cx.query 0 (off st) (fun _ => none)) (fun S => as.slips S) as.mute as.count ∧
    (st'.accepted = true ↔ as.ways cx.query 0 (off st) (fun _ => none) ≠ []) ∧ (st'.accepted = true → Told cx.query as (off st) st') := by
  obtain ⟨h1, h2, h3, h4, h5⟩ := committed_facts hc
  obtain ⟨hp, hi⟩ := hg.nat
  have hst' : stricts ms = true := row_strict as 0 ms hrow
  rw [run_joined hj] at e
  have hle : off st ≤ cx.query.length := by have := hg.pos.2; simp only [Ctx.qend] at this; omega
  have o := row_acts hlen hq as 0 ms hrow hst' h2 ⟨_, _, h4⟩ hn false st st' (off st) (fun _ => none) hp hle (by simp) ⟨fun k a b h => (by cases h), fun h => (by cases h)⟩ e
  refine ⟨o, ?_, fun hacc => ?_⟩
  · rw [committed_some hq h4 hle]
    constructor
    · intro ha hn; rw [o.no hn] at ha; cases ha
    · intro hne
      cases hgo : as.go cx.query 0 (off st) (fun _ => none) with
      | none => exact absurd hgo hne
      | some w => exact (o.yes w hgo).1
  · cases hgo : as.go cx.query 0 (off st) (fun _ => none) with
    | none => rw [o.no hgo] at hacc; cases hacc
    | some w =>
      obtain ⟨_, y2, y3⟩ := o.yes w hgo
      refine ⟨w, by rw [committed_head hq h4 hle]; exact hgo, ⟨y2, fun k hk => ?_⟩, hlg'⟩
      rcases hb with hf | hb | ⟨hb, hx⟩
      · have := alts_forced cx.query as 0 hf (off st, fun _ => none) w hgo k (Nat.zero_le _) (by omega)
        cases hw : w.2 k with
        | none => exact absurd hw this
        | some x => exact y3.1 k x.1 x.2 hw
      · have o2 := row_acts hlen hq as 0 ms hrow hst' h2 ⟨_, _, h4⟩ hn true st st' (off st) (fun _ => none) hp hle (by simp)
          ⟨fun k a b h => (by cases h), fun _ k hk _ => Blank.at (st := st) hb hk⟩ e
        obtain ⟨_, _, z3⟩ := o2.yes w hgo
        cases hw : w.2 k with
        | none => exact z3.2 rfl k hk hw
        | some x => exact z3.1 k x.1 x.2 hw
      · have := committed_head hq h4 hle (fun _ => none)
        rw [hgo, front_only hb hx] at this
        cases this

theorem committed_search (hc : as.committed = true) (hnf : as.atFront = false) (hr : as.resumes = true) (hrow : as.Row true 0 ms) (hj : Joined ms t) (hst : strict t = true) (hlen : cx.query.length < umax)
    (hq : ∀ c ∈ cx.query, c ∈ allChars) (hn : as.dollars = true → cx.post.head? = some 0) :
    AttemptsG cx t (fun i => as.ways cx.query 0 i (fun _ => none) ≠ []) (Told cx.query as) ∨
    AttemptsF cx t (fun i => as.ways cx.query 0 i (fun _ => none) ≠ []) (Told cx.query as) := by
  obtain ⟨hsafe, hcount⟩ := fit_safe hrow hj hst hn
  obtain ⟨h1, h2, h3, h4, h5⟩ := committed_facts hc
  by_cases hf : as.forced = true
  · left
    refine ⟨hsafe, fun L s st st' hL hs hg hstart hacc e => ?_⟩
    have hg' := (hsafe L s hL hs).get hg e
    obtain ⟨o, y1, y2⟩ := committed_try hc hrow hj hst hlen hq hn hg (by rw [← hcount]; exact hg.len) (by rw [← hcount]; exact hg'.len) (.inl hf) e
    refine ⟨y1, y2, fun hrej x hx1 hx2 hx => ?_⟩
    obtain ⟨hp, hi⟩ := hg.nat
    have hle : off st ≤ cx.query.length := by have := hg.pos.2; simp only [Ctx.qend] at this; omega
    have hno : as.go cx.query 0 (off st) (fun _ => none) = none := by
      cases hgo : as.go cx.query 0 (off st) (fun _ => none) with
      | none => rfl
      | some w => rw [(o.yes w hgo).1] at hrej; cases hrej
    have hle' : off st' ≤ cx.query.length := by have := hg'.pos.2; simp only [Ctx.qend] at this; unfold off; omega
    rw [committed_some hq h4 (by omega)] at hx
    simp only [Alts.resumes, Bool.or_eq_true, Bool.and_eq_true] at hr
    rcases hr with hr | ⟨_, hr⟩
    · obtain ⟨d, hd1, hd2⟩ := o.slip hno _ hr
      have := inClass_stop hd2
      subst this
      have : x = off st := by unfold off at hx2 ⊢; unfold off at hx1; omega
      rw [this] at hx; exact hx hno
    · cases hl : as.lead with
      | none => rw [hl] at hr; cases hr
      | some S =>
        rw [hl] at hr
        obtain ⟨d, hd1, hd2⟩ := o.slip hno _ hr
        have hoff : off st' = off st + d := by show st'.pos.toNat = off st + d; omega
        cases hgx : as.go cx.query 0 x (fun _ => none) with
        | none => exact hx hgx
        | some w =>
          obtain ⟨w', hw', _⟩ := alts_back cx.query S as 0 (off st) (x - off st) (fun _ => none) w hl (inClass_mono hd2 (by omega)) (by
            rw [show off st + (x - off st) = x by omega]; exact hgx)
          rw [hno] at hw'; cases hw'
  · right
    have hmu : as.mute = true := by
      rcases h5 with h | h | h
      · exact absurd h hf
      · exact h
      · rw [hnf] at h; cases h
    refine ⟨hsafe, fun L s st st' hL hs hg hbl hstart hacc e => ?_⟩
    have hg' := (hsafe L s hL hs).get hg e
    obtain ⟨o, y1, y2⟩ := committed_try hc hrow hj hst hlen hq hn hg (by rw [← hcount]; exact hg.len) (by rw [← hcount]; exact hg'.len) (.inr (.inl hbl)) e
    refine ⟨y1, y2, fun hrej => ?_⟩
    obtain ⟨hp, hi⟩ := hg.nat
    have hno : as.go cx.query 0 (off st) (fun _ => none) = none := by
      cases hgo : as.go cx.query 0 (off st) (fun _ => none) with
      | none => rfl
      | some w => rw [(o.yes w hgo).1] at hrej; cases hrej
    simp only [Alts.resumes, Bool.or_eq_true, Bool.and_eq_true] at hr
    rcases hr with hr | ⟨h, _⟩
    · obtain ⟨d, hd1, hd2⟩ := o.slip hno _ hr
      have := inClass_stop hd2
      subst this
      exact ⟨by rw [hd1, Nat.add_zero]; exact hp.symm, o.mute hno hmu⟩
    · exact absurd h hf

theorem committed_own (hc : as.committed = true) (hrow : as.Row true 0 ms) (hj : Joined ms t) (hst : strict t = true) (hlen : cx.query.length < umax)
    (hq : ∀ c ∈ cx.query, c ∈ allChars) (hn : as.dollars = true → cx.post.head? = some 0) {L s : Int} {st st' : St} (hL : 0 ≤ L) (hs : L ≤ s)
    (hg : Good cx ⟨L, s, groupsOf t, fun _ _ _ => True⟩ st) (hb : Carries as (off st) st.groups) (e : run cx t [] st = some st') :
    (st'.accepted = true ↔ as.ways cx.query 0 (off st) (fun _ => none) ≠ []) ∧ (st'.accepted = true → Told cx.query as (off st) st') ∧
    (st'.accepted = false → ∀ x, off st < x → Carries as x st'.groups) := by
  obtain ⟨hsafe, hcount⟩ := fit_safe hrow hj hst hn
  obtain ⟨h1, h2, h3, h4, h5⟩ := committed_facts hc
  have hg' := (hsafe L s hL hs).get hg e
  obtain ⟨o, y1, y2⟩ := committed_try hc hrow hj hst hlen hq hn hg (by rw [← hcount]; exact hg.len) (by rw [← hcount]; exact hg'.len) hb e
  refine ⟨y1, y2, fun hrej x hx => ?_⟩
  rcases h5 with h5 | h5 | h5
  · exact .inl h5
  · rcases hb with hb | hb | ⟨hb, _⟩
    · exact .inl hb
    · have hno : as.go cx.query 0 (off st) (fun _ => none) = none := by
        cases hgo : as.go cx.query 0 (off st) (fun _ => none) with
        | none => rfl
        | some w => rw [(o.yes w hgo).1] at hrej; cases hrej
      right; left
      rw [o.mute hno h5]
      exact hb
    · exact .inr (.inr ⟨hb, by omega⟩)
  · exact .inr (.inr ⟨h5, by omega⟩)

end

/-! ## the search, without knowing where a failed attempt ends -/

theorem nextLoop_own {cx : Ctx} {t : Node} {R : Nat → St → Prop} {I : Nat → List (Option (Int × Int)) → Prop} (hs : SafeTree cx t)
    (h : ∀ L s st st', 0 ≤ L → L ≤ s → Good cx ⟨L, s, groupsOf t, fun _ _ _ => True⟩ st → I (off st) st.groups → run cx t [] st = some st' →
      (st'.accepted = true → R (off st) st') ∧ (st'.accepted = false → ∀ x, off st < x → I x st'.groups)) {L : Int} (hL : 0 ≤ L) : ∀ (f : Nat) (st st' : St),
    L ≤ st.start → st.start = st.pos → st.groups.length = groupsOf t → (∀ v ∈ st.groups, ViewIn cx L v) → I (off st) st.groups →
    nextLoop cx (run cx t []) f st = .ok st' → st'.accepted = true → ∃ s : Nat, st'.start = s ∧ off st ≤ s ∧ R s st' := by
  intro f
  induction f with
  | zero =>
    intro st st' h1 _ hlen hv hI e ha
    simp only [nextLoop] at e
    split at e
    · simp at e
    · cases e; simp at ha
  | succ f ih =>
    intro st st' h1 hst hlen hv hI e hacc
    simp only [nextLoop] at e
    split at e
    · rename_i hlt
      split at e
      · simp at e
      · rename_i st1 e1
        have hg : Good cx ⟨L, st.start, groupsOf t, fun _ _ _ => True⟩ st :=
          ⟨rfl, ⟨hL, h1⟩, ⟨by simp only; omega, by omega⟩, hlen, hv, fun _ _ _ _ => trivial⟩
        have g1 := (hs L st.start hL h1).get hg e1
        have hs1 := g1.start; have hp := g1.pos
        simp only at hs1 hp
        obtain ⟨hn, _⟩ := hg.nat
        obtain ⟨r1, r2⟩ := h L st.start st _ hL h1 hg hI e1
        split at e
        · rename_i ha
          cases e
          exact ⟨off st, by omega, Nat.le_refl _, r1 ha⟩
        · rename_i ha
          obtain ⟨s, h2, h3, h4⟩ := ih { st1 with start := st1.pos + 1, pos := st1.pos + 1 } st' (by simp only; omega) rfl g1.len g1.views
            (r2 (by simpa using ha) _ (by show st.pos.toNat < (st1.pos + 1).toNat; omega)) e hacc
          have ho : off { st1 with start := st1.pos + 1, pos := st1.pos + 1 } = (st1.pos + 1).toNat := rfl
          rw [ho] at h3
          refine ⟨s, h2, ?_, h4⟩
          have : off st = st.pos.toNat := rfl
          omega
    · cases e; simp at hacc

theorem nextLoop_first {cx : Ctx} {k : St → Option St} {f : Nat} {st st' : St} (e : nextLoop cx k f st = .ok st') (h : st.start < cx.qend) :
    ∃ st1, k st = some st1 ∧ (st1.accepted = true → st' = st1) := by
  cases f with
  | zero =>
    simp only [nextLoop] at e
    split at e
    · cases e
    · rename_i hn; exact absurd h hn
  | succ f =>
    simp only [nextLoop] at e
    split at e
    · split at e
      · cases e
      · rename_i st1 e1
        refine ⟨st1, e1, fun ha => ?_⟩
        rw [if_pos ha] at e
        cases e; rfl
    · rename_i hn; exact absurd h hn

theorem next_own {cx : Ctx} {t : Node} {R : Nat → St → Prop} {I : Nat → List (Option (Int × Int)) → Prop} (hs : SafeTree cx t)
    (h : ∀ L s st st', 0 ≤ L → L ≤ s → Good cx ⟨L, s, groupsOf t, fun _ _ _ => True⟩ st → I (off st) st.groups → run cx t [] st = some st' →
      (st'.accepted = true → R (off st) st') ∧ (st'.accepted = false → ∀ x, off st < x → I x st'.groups)) (hI : ∀ x, I x (List.replicate (groupsOf t) none)) {f : Nat} {st st' : St} (h0 : 0 ≤ st.pos)
    (e : next cx t f st = .ok st') (ha : st'.accepted = true) : ∃ s : Nat, st'.start = s ∧ off st ≤ s ∧ R s st' :=
  nextLoop_own hs h (L := st.pos) h0 f { st with groups := List.replicate (groupsOf t) none, start := st.pos } st' (by simp) rfl (by simp) (replicate_views cx _ _) (hI _) e ha

theorem construct_own {cx : Ctx} {t : Node} {R : Nat → St → Prop} {I : Nat → List (Option (Int × Int)) → Prop} (hs : SafeTree cx t)
    (h : ∀ L s st st', 0 ≤ L → L ≤ s → Good cx ⟨L, s, groupsOf t, fun _ _ _ => True⟩ st → I (off st) st.groups → run cx t [] st = some st' →
      (st'.accepted = true → R (off st) st') ∧ (st'.accepted = false → ∀ x, off st < x → I x st'.groups)) (hI : ∀ x, I x (List.replicate (groupsOf t) none)) {f : Nat} {st' : St}
    (e : construct cx t f = .ok st') : (st'.accepted = true → ∃ s : Nat, st'.start = s ∧ R s st') ∧
      ∃ st1, run cx t [] (initSt t) = some st1 ∧ (st1.accepted = true → st' = st1 ∧ st1.start = 0) := by
  simp only [construct] at e
  split at e
  · simp at e
  · rename_i st1 e1
    have hq : 0 ≤ cx.qend := by simp [Ctx.qend]
    have hg : Good cx ⟨0, 0, groupsOf t, fun _ _ _ => True⟩ (initSt t) :=
      ⟨rfl, ⟨by simp, by simp⟩, ⟨by simp [initSt], by simp [initSt, hq]⟩, by simp [initSt], replicate_views cx _ _, fun _ _ _ _ => trivial⟩
    obtain ⟨r1, r2⟩ := h 0 0 (initSt t) st1 (by omega) (by omega) hg (hI _) e1
    have g1 := (hs 0 0 (by omega) (by omega)).get hg e1
    have hst := g1.start; have hp := g1.pos
    simp only at hst hp
    have h00 : off (initSt t) = 0 := rfl
    rw [h00] at r1
    split at e
    · rename_i ha
      cases e
      exact ⟨fun _ => ⟨0, by simpa using hst, r1 ha⟩, _, e1, fun _ => ⟨rfl, hst⟩⟩
    · rename_i hna
      refine ⟨fun ha => ?_, st1, e1, fun h => absurd h hna⟩
      obtain ⟨s, h1, _, h2⟩ := next_own hs h hI (by omega) e ha
      exact ⟨s, h1, h2⟩

end

end ERegex

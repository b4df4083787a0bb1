import Verif.Props.Joined
import Verif.Spec.Counted
/-!
# C79 : lists with a number of items
-/
set_option autoImplicit false
namespace ERegex.Props
open ERegex ERegex.Spec
open ERegex.Conformance (lit m)

/-- `s a{…}` -/
private def tailSq (a : Atom) (k : Quant) : List Atom → Sq
  | [] => .cons a k (.nil false)
  | b :: s => .cons b .once (tailSq a k s)
/-- `a{…}(?:b s a{…}){…}$` -/
private def countSq (a b : Atom) (s : List Atom) (k r : Quant) : Sq :=
  .cons a k (.cons (.group false (.last false (.cons b .once (tailSq a k s)))) r (.nil true))

/-- `a{…}(?:s a{…}){…}` -/
def countSpell (a : Atom) (s : List Atom) (k r : Quant) : List Int :=
  a.spell ++ k.spell ++ [40, 63, 58] ++ (s.map Atom.spell).flatten ++ a.spell ++ k.spell ++ [41] ++ r.spell

private theorem tail_spell (a : Atom) (k : Quant) : ∀ s, (tailSq a k s).spell = (s.map Atom.spell).flatten ++ a.spell ++ k.spell
  | [] => by simp [tailSq, Sq.spell]
  | b :: s => by simp [tailSq, Sq.spell, Quant.spell, tail_spell a k s]

private theorem count_spell (a b : Atom) (s : List Atom) (k r : Quant) : (countSq a b s k r).spell = countSpell a (b :: s) k r ++ [36] := by
  simp [countSq, countSpell, Alts.spell, Sq.spell, Atom.spell, Quant.spell, tail_spell]

/-- The quantifiers: greedy, `X{2,1}` and `X{0}` excluded, and `X?` as well. -/
def Counting (k : Quant) : Prop := k.sane = true ∧ k.mode = .greedy ∧ ¬ (k.lo = 0 ∧ k.hi = some 1)

/-! Cases that meet the conditions: four numbers of up to three digits with dots between them, six pairs of hexadecimal digits with colons between them. -/
example : countSpell (.esc 100) [.esc 46] (.between [49] [51] .greedy) (.exact [51] .greedy) = str "\\d{1,3}(?:\\.\\d{1,3}){3}" ∧ (Atom.esc 100).ok = true ∧
    (Atom.esc 100).listing = true ∧ (Atom.esc 100).set 10 = false ∧ (Atom.esc 46).set 10 = false ∧
    ∀ c ∈ [94] ++ countSpell (.esc 100) [.esc 46] (.between [49] [51] .greedy) (.exact [51] .greedy) ++ [36], c ∈ allChars := by decide +kernel
example : Counting (.between [49] [51] .greedy) ∧ Counting (.exact [51] .greedy) ∧ Seps [.esc 46] := by
  refine ⟨⟨by decide, rfl, by decide⟩, ⟨by decide, rfl, by decide⟩, by unfold Seps; decide⟩
example : countSpell (.cls false [.rng 48 57, .rng 97 102] false) [.chr 58] (.exact [50] .greedy) (.exact [53] .greedy) = str "[0-9a-f]{2}(?::[0-9a-f]{2}){5}" := by decide
example : ∀ c, (Atom.esc 100).set c = true → (Atom.esc 46).set c = false := by
  intro c h
  have : c ≠ 46 := by rintro rfl; revert h; decide
  simpa [Atom.set, escape] using this
example : m "^\\d{1,3}(?:\\.\\d{1,3}){3}$" "10.2.33.4" = some [some "10.2.33.4"] ∧ m "^\\d{1,3}(?:\\.\\d{1,3}){3}$" "10.2.33" = none ∧
    m "^\\d{1,3}(?:\\.\\d{1,3}){3}$" "10.2.33.4.5" = none ∧ m "^\\d{1,3}(?:\\.\\d{1,3}){3}$" "10.2.3333.4" = none ∧ m "^\\d{1,3}(?:\\.\\d{1,3}){3}$" "10..33.4" = none ∧
    m "^\\w*(?:,\\w*){2}$" "a,,c" = some [some "a,,c"] ∧ m "^\\w*(?:,\\w*){2}$" "a," = none := by decide +kernel

/-! ## the conditions of the library -/

private structure Fine (a : Atom) (k : Quant) (s : List Atom) : Prop where
  ok : (tailSq a k s).ok = true
  plainly : (tailSq a k s).plainly = true
  hatless : (tailSq a k s).hatless = true
  mute : (tailSq a k s).mute = true
  count : (tailSq a k s).count = 0
  lined : ∀ g n, (tailSq a k s).lined g n = true
  hard : (tailSq a k s).hard (fun _ => false) = true
  bulk : (tailSq a k s).bulk = 2 * s.length + (k.lo + 1)
  flat : flat (tailSq a k s) = true
  within : (tailSq a k s).within (fun _ => true) = true

private theorem sane_ok {k : Quant} (h : k.sane = true) : k.ok = true := by
  simp only [Quant.sane, Bool.and_eq_true] at h
  exact h.1

private theorem fine {a : Atom} {k : Quant} (ha : a.ok = true) (hl : a.listing = true) (hk : Counting k) : ∀ (s : List Atom), Seps s → Fine a k s
  | [], _ => by
    have hst := listing_steady hl
    have e := easy ha hst
    obtain ⟨hs, hm, _⟩ := hk
    have none : ∀ f : Int → Bool, (meets f fun x => (Sq.nil false).firsts x || false) = false := fun f => not_meets (fun x _ h => by simp [Sq.firsts] at h)
    constructor
    · simp [tailSq, Sq.ok, ha, sane_ok hs]
    · simp [tailSq, Sq.plainly, e.plainly, e.feeds, e.mute, hs]
    · simp [tailSq, Sq.hatless, e.hatless]
    · simp [tailSq, Sq.mute, e.count]
    · simp [tailSq, Sq.count, e.count]
    · simp [tailSq, Sq.lined, e.lined]
    · cases k <;> (simp only [Quant.mode] at hm; try subst hm) <;> simp only [tailSq, Sq.hard, e.hard, e.isCap, Quant.mode, none] <;> simp
    · simp [tailSq, Sq.bulk, e.bulk]
    · simp [tailSq, flat, hst, hs]
    · simp [tailSq, Sq.within, e.within]
  | b :: s, h => by
    have hb := h b (by simp)
    have hstb := listing_steady hb.2
    have e := easy hb.1 hstb
    have i := fine ha hl hk s (fun c hc => h c (List.mem_cons_of_mem _ hc))
    constructor
    · simp [tailSq, Sq.ok, hb.1, Quant.ok, i.ok]
    · simp [tailSq, Sq.plainly, e.plainly, e.feeds, e.mute, Quant.sane, Quant.ok, Quant.hi, Quant.lo, Quant.isOnce, i.plainly]
    · simp [tailSq, Sq.hatless, e.hatless, i.hatless]
    · simp [tailSq, Sq.mute, e.count, i.mute]
    · simp [tailSq, Sq.count, e.count, i.count]
    · simp [tailSq, Sq.lined, e.lined, i.lined]
    · simp [tailSq, Sq.hard, e.hard, e.isCap, i.hard]
    · simp [tailSq, Sq.bulk, e.bulk, Quant.lo, i.bulk]; omega
    · simp [tailSq, flat, hstb, Quant.sane, Quant.ok, Quant.lo, Quant.hi, i.flat]
    · simp [tailSq, Sq.within, e.within, i.within]

/-- A greedy repetition of what is fed, and whose next character decides, commits. -/
private theorem piece_commits {a : Atom} {k : Quant} {s : Sq} {L : Int → Bool} (hk : Counting k) (hf : a.feeds = true)
    (hm : meets a.heads (s.upcoming L) = false)
    (h1 : a.commits false (s.upcoming L) = true) (h2 : a.commits false (fun x => a.heads x || s.upcoming L x) = true) (hs : s.commits false L = true) :
    (Sq.cons a k s).commits false L = true := by
  obtain ⟨h3, h4, _⟩ := hk
  cases k <;> (simp only [Quant.mode] at h4; try subst h4) <;> simp [Sq.commits, hf, h1, h2, h3, hs, decides, Quant.mode, hm]

private theorem tail_commits {a : Atom} {k : Quant} (ha : a.ok = true) (hl : a.listing = true) (hk : Counting k) {L : Int → Bool} (h : ∀ c, a.set c = true → L c = false) :
    ∀ (s : List Atom), Seps s → (tailSq a k s).commits false L = true
  | [], _ => by
    have e := easy ha (listing_steady hl)
    refine piece_commits hk e.feeds (not_meets (fun x h1 h2 => ?_)) (e.commits _ _) (e.commits _ _) rfl
    simp [Sq.upcoming, Sq.heads, Sq.empties] at h2
    rw [e.heads] at h1
    rw [h x h1] at h2; cases h2
  | b :: s, hs => by
    have hb := hs b (by simp)
    have e := easy hb.1 (listing_steady hb.2)
    simp [tailSq, Sq.commits, e.commits, tail_commits ha hl hk h s (fun c hc => hs c (List.mem_cons_of_mem _ hc))]

/-- A greedy repetition other than `?`, of what restores the position, in front of something that moves it forwards only. -/
private theorem piece_hard {a : Atom} {k : Quant} {s : Sq} (hk : Counting k) (h1 : a.hard (fun _ => false) = true) (h2 : a.isCap = false) (h3 : s.empty = false)
    (h4 : a.slips (fun _ => false) = true) (h5 : s.slips (fun _ => true) = true) (h6 : s.hard (fun _ => false) = true) : (Sq.cons a k s).hard (fun _ => false) = true := by
  obtain ⟨_, h7, h8⟩ := hk
  cases k <;> (simp only [Quant.mode] at h7; try subst h7) <;> simp only [Sq.hard, h1, h2, h3, h4, h5, h6, Quant.mode] <;>
    first | (simp; done) | (simp [Quant.lo, Quant.hi] at h8 ⊢; done) | (simp [Quant.lo, Quant.hi] at h8 ⊢; refine Or.inr ?_; rcases Int.lt_or_le 0 (decimal _) with h9 | h9; exact Or.inl h9; exact Or.inr (h8 h9))

private theorem count_committed {a b : Atom} {s : List Atom} {k r : Quant} (ha : a.ok = true) (hl : a.listing = true) (hs : Seps (b :: s)) (hk : Counting k) (hr : Counting r)
    (hne : k.lo ≠ 0 ∨ r.lo ≠ 0) (h1 : ∀ c, a.set c = true → b.set c = false) (h2 : a.set 10 = false) (h3 : b.set 10 = false)
    (hn : (k.lo + 1) + (2 * (s.length + 1) + (k.lo + 1)) * (r.lo + 1) < 4294967296) : (Alts.last true (countSq a b s k r)).committed = true := by
  have hst : a.steady = true := listing_steady hl
  have e := easy ha hst
  have hb := (hs b (by simp)).1
  have hstb := listing_steady (hs b (by simp)).2
  have eb := easy hb hstb
  have i := fine ha hl hk s (fun c hc => hs c (List.mem_cons_of_mem _ hc))
  have o1 : Quant.once.ok = true := rfl
  have o2 : Quant.once.sane = true := rfl
  have o3 : Quant.once.lo = 1 := rfl
  have gf : (Atom.group false (.last false (.cons b .once (tailSq a k s)))).feeds = true := by simp [Atom.feeds, Alts.feeds, Sq.feeds, Quant.lo, eb.feeds]
  have gh : (Atom.group false (.last false (.cons b .once (tailSq a k s)))).heads = b.set := by
    funext x; simp [Atom.heads, Alts.heads, Sq.heads, Quant.lo, eb.heads, eb.empties]
  have ge : (Atom.group false (.last false (.cons b .once (tailSq a k s)))).empties = false := by simp [Atom.empties, Alts.empties, Sq.empties, Quant.lo, eb.empties]
  simp only [Alts.committed, Bool.and_eq_true]
  refine ⟨⟨⟨⟨⟨⟨?_, ?_⟩, ?_⟩, ?_⟩, ?_⟩, ?_⟩, ?_⟩
  · simp [countSq, Alts.ok, Sq.ok, Atom.ok, ha, hb, sane_ok hk.1, sane_ok hr.1, o1, Sq.empty, i.ok]
  · have hfeeds : (countSq a b s k r).feeds = true := by
      simp only [countSq, Sq.feeds, gf, e.feeds]
      simpa using hne
    have hpl : (countSq a b s k r).plainly = true := by
      simp [countSq, Sq.plainly, gf, e.plainly, e.feeds, e.mute, hk.1, hr.1, Atom.plainly, Alts.plainly, Alts.hatless, Atom.mute, Alts.mute, Sq.mute, Sq.hatless, Sq.empty, i.plainly, i.hatless, i.mute,
        eb.plainly, eb.hatless, eb.mute, eb.count, eb.feeds, o2, Quant.isOnce]
    have hhat : (countSq a b s k r).hatless = true := by simp [countSq, Sq.hatless, Atom.hatless, Alts.hatless, e.hatless, eb.hatless, i.hatless]
    simp only [Alts.plainly, hfeeds, hpl, hhat]
    simp [countSq, Sq.empty]
  · simp [countSq, i.lined, Alts.aligned, Sq.lined, e.lined, eb.lined, Atom.lined, Alts.lined]
  · have hc : ∀ L : Int → Bool, (∀ c, a.set c = true → L c = false) → (Atom.group false (.last false (.cons b .once (tailSq a k s)))).commits false L = true := by
      intro L hL
      simp [Atom.commits, Alts.commits, Alts.hatless, Sq.hatless, eb.hatless, i.hatless, Sq.commits, eb.commits,
        tail_commits ha hl hk hL s (fun c hc => hs c (List.mem_cons_of_mem _ hc))]
    have hhat : (countSq a b s k r).hatless = true := by simp [countSq, Sq.hatless, Atom.hatless, Alts.hatless, e.hatless, eb.hatless, i.hatless]
    have ten : ∀ x, a.set x = true → x ≠ 10 := by rintro x h4 rfl; rw [h2] at h4; cases h4
    have inner : (Sq.cons (.group false (.last false (.cons b .once (tailSq a k s)))) r (.nil true)).commits false (fun _ => false) = true := by
      refine piece_commits hr gf (not_meets (fun x h4 h5 => ?_)) (hc _ (fun x h4 => ?_)) (hc _ (fun x h4 => ?_)) rfl
      · rw [gh] at h4
        simp [Sq.upcoming, Sq.heads, Sq.empties] at h5
        subst h5; rw [h3] at h4; cases h4
      · simp [Sq.upcoming, Sq.heads, Sq.empties, ten x h4]
      · simp [Sq.upcoming, Sq.heads, Sq.empties, ten x h4, gh, h1 x h4]
    have tot : ∀ (a : Atom) (k : Quant) (r : Quant) (g : Atom), (Sq.cons a k (.cons g r (.nil true))).commits true (fun _ => false) = (Sq.cons a k (.cons g r (.nil true))).commits false (fun _ => false) := by
      intro a k r g
      simp [Sq.commits, Sq.empties]
    simp only [Alts.commits, hhat, Bool.true_and]
    rw [countSq, tot]
    refine piece_commits hk e.feeds (not_meets (fun x h4 h5 => ?_)) (e.commits _ _) (e.commits _ _) inner
    rw [e.heads] at h4
    simp [Sq.upcoming, Sq.heads, Sq.empties, gh, ge, ten x h4, h1 x h4] at h5
  · simp [Alts.atFront]
  · have gs : ∀ S, (Atom.group false (.last false (.cons b .once (tailSq a k s)))).slips S = true := by
      intro S; simp [Atom.slips, Alts.slips, Sq.slips, eb.slips, Quant.lo, Quant.isOnce, eb.isCap]
    have gw : (Atom.group false (.last false (.cons b .once (tailSq a k s)))).within (fun _ => true) = true := by
      simp [Atom.within, Alts.within, Sq.within, eb.within, i.within]
    have gd : (Atom.group false (.last false (.cons b .once (tailSq a k s)))).hard (fun _ => false) = true := by
      simp [Atom.hard, Alts.hard, Sq.hard, eb.hard, eb.isCap, i.hard]
    simp only [Alts.hard, if_true, countSq]
    refine piece_hard hk (e.hard _) e.isCap rfl (e.slips _) ?_ (piece_hard hr gd rfl rfl (gs _) rfl rfl)
    simp [Sq.slips, gs, gw]
  · simp [countSq, Alts.bulk, Sq.bulk, e.bulk, eb.bulk, Atom.bulk, o3, i.bulk]
    have : 2 + (2 * s.length + (k.lo + 1)) = 2 * (s.length + 1) + (k.lo + 1) := by omega
    rw [this]; omega

/-! ## the matches -/

private theorem some_counts {S : Int → Bool} {k : Quant} (hk : Counting k) {l : List Int} {n : Nat} : n ∈ k.counts (runLen S l) ↔
    ∃ w r, l = w ++ r ∧ w.length = n ∧ FieldText S k.lo k.hi w := by
  rw [mem_greedy _ _ _ (by rw [hk.2.1]; simp), le_run, Allowed]
  constructor
  · rintro ⟨h1, w, r, h3, rfl, h4⟩
    exact ⟨w, r, h3, rfl, h1, h4⟩
  · rintro ⟨w, r, h3, rfl, h1, h4⟩
    exact ⟨h1, w, r, h3, rfl, h4⟩

private theorem tail_picks (q : List Int) (a : Atom) {k : Quant} (hk : Counting k) : ∀ (s : List Atom) (j e : Nat), e ∈ (tailSq a k s).picks q j ↔
    ∃ u w r, q.drop j = u ++ (w ++ r) ∧ SepText (s.map Atom.set) u ∧ FieldText a.set k.lo k.hi w ∧ e = j + u.length + w.length
  | [], j, e => by
    simp only [tailSq, Sq.picks, List.mem_flatMap, List.mem_singleton, some_counts hk, List.map_nil, SepText]
    constructor
    · rintro ⟨n, ⟨w, r, h1, rfl, h2⟩, rfl⟩
      exact ⟨[], w, r, h1, rfl, h2, by simp⟩
    · rintro ⟨u, w, r, h1, rfl, h2, rfl⟩
      exact ⟨w.length, ⟨w, r, h1, rfl, h2⟩, by simp⟩
  | b :: s, j, e => by
    simp only [tailSq, Sq.picks, counts_once, List.mem_flatMap, List.map_cons, SepText]
    constructor
    · rintro ⟨n, hn, hin⟩
      split at hn
      · rename_i hsep
        simp only [List.mem_singleton] at hn
        subst hn
        obtain ⟨u, w, r, h1, h2, h3, rfl⟩ := (tail_picks q a hk s _ e).1 hin
        obtain ⟨v, r', g1, g2, g3⟩ := le_run.1 hsep
        match v, g2 with
        | [c], _ =>
          refine ⟨c :: u, w, r, ?_, ⟨c, u, rfl, g3 c (by simp), h2⟩, h3, by simp; omega⟩
          rw [← List.drop_drop, g1] at h1
          rw [g1]
          simpa using h1
      · simp at hn
    · rintro ⟨_, w, r, h1, ⟨c, u, rfl, h4, h5⟩, h2, rfl⟩
      have hsep : 1 ≤ runLen b.set (q.drop j) := le_run.2 ⟨[c], u ++ (w ++ r), by simpa using h1, rfl, by simpa using h4⟩
      refine ⟨1, by simp [hsep], (tail_picks q a hk s _ _).2 ⟨u, w, r, ?_, h5, h2, by simp; omega⟩⟩
      rw [← List.drop_drop, h1]; simp

/-- Fields, each with the separator in front of it. -/
private def Items (S : Int → Bool) (T : List (Int → Bool)) (lo : Nat) (hi : Option Nat) (more : List (List Int × List Int)) : Prop :=
  ∀ p ∈ more, SepText T p.1 ∧ FieldText S lo hi p.2
private def joined (more : List (List Int × List Int)) : List Int := (more.map (fun p => p.1 ++ p.2)).flatten

private theorem joined_cons (p : List Int × List Int) (more : List (List Int × List Int)) : joined (p :: more) = p.1 ++ (p.2 ++ joined more) := by simp [joined]
private theorem joined_append (l l' : List (List Int × List Int)) : joined (l ++ l') = joined l ++ joined l' := by simp [joined]

/-- What one repetition of the group takes. -/
private structure Body (q : List Int) (S : Int → Bool) (T : List (Int → Bool)) (lo : Nat) (hi : Option Nat) (body : Nat → List Nat) : Prop where
  iff : ∀ j e, e ∈ body j ↔ ∃ u w r, q.drop j = u ++ (w ++ r) ∧ SepText T u ∧ FieldText S lo hi w ∧ e = j + u.length + w.length

private theorem must_items {q : List Int} {S : Int → Bool} {T : List (Int → Bool)} {lo : Nat} {hi : Option Nat} {body : Nat → List Nat} (hb : Body q S T lo hi body) :
    ∀ (n : Nat) (p : Nat × Nat) (x : Nat), (∃ r ∈ mustS body n p, r.2 = x) ↔
      ∃ more rest, more.length = n ∧ Items S T lo hi more ∧ q.drop p.2 = joined more ++ rest ∧ x = p.2 + (joined more).length
  | 0, p, x => by
    simp only [mustS, List.mem_singleton]
    constructor
    · rintro ⟨r, rfl, rfl⟩
      exact ⟨[], q.drop r.2, rfl, by simp [Items], by simp [joined], by simp [joined]⟩
    · rintro ⟨more, rest, h1, _, _, rfl⟩
      rw [List.length_eq_zero_iff] at h1
      subst h1
      exact ⟨p, rfl, by simp [joined]⟩
  | n + 1, p, x => by
    simp only [mustS, List.mem_flatMap]
    constructor
    · rintro ⟨r, ⟨e, he, hr⟩, rfl⟩
      obtain ⟨u, w, l, h1, h2, h3, rfl⟩ := (hb.iff p.2 e).1 he
      obtain ⟨more, rest, g1, g2, g3, g4⟩ := (must_items hb n _ _).1 ⟨r, hr, rfl⟩
      simp only at g3 g4
      have hd : q.drop (p.2 + u.length + w.length) = l := by rw [← List.drop_drop, ← List.drop_drop, h1]; simp
      refine ⟨(u, w) :: more, rest, by simp [g1], ?_, ?_, ?_⟩
      · intro v hv
        rcases List.mem_cons.1 hv with rfl | hv
        · exact ⟨h2, h3⟩
        · exact g2 v hv
      · rw [h1, ← hd, g3, joined_cons]; simp
      · rw [g4, joined_cons]; simp; omega
    · rintro ⟨more, rest, h1, h2, h3, rfl⟩
      match more, h1 with
      | (u, w) :: more, h1 =>
        have hw := h2 (u, w) (by simp)
        rw [joined_cons, List.append_assoc, List.append_assoc] at h3
        have hin := (hb.iff p.2 _).2 ⟨u, w, joined more ++ rest, h3, hw.1, hw.2, rfl⟩
        have hd : q.drop (p.2 + u.length + w.length) = joined more ++ rest := by rw [← List.drop_drop, ← List.drop_drop, h3]; simp
        obtain ⟨r, hr, g⟩ := (must_items hb n (p.2, p.2 + u.length + w.length) _).2 ⟨more, rest, by simpa using h1, fun v hv => h2 v (List.mem_cons_of_mem _ hv), hd, rfl⟩
        refine ⟨r, ⟨_, hin, hr⟩, ?_⟩
        rw [g, joined_cons]; simp; omega

private theorem many_items {q : List Int} {S : Int → Bool} {T : List (Int → Bool)} {lo : Nat} {hi : Option Nat} {body : Nat → List Nat} (hb : Body q S T lo hi body) :
    ∀ (f : Nat) (p : Nat × Nat) (x : Nat), (∃ r ∈ manyS body f p, r.2 = x) ↔
      ∃ more rest, more.length ≤ f ∧ Items S T lo hi more ∧ q.drop p.2 = joined more ++ rest ∧ x = p.2 + (joined more).length
  | 0, p, x => by
    simp only [manyS, List.mem_singleton]
    constructor
    · rintro ⟨r, rfl, rfl⟩
      exact ⟨[], q.drop r.2, by simp, by simp [Items], by simp [joined], by simp [joined]⟩
    · rintro ⟨more, rest, h1, _, _, rfl⟩
      have h1 : more = [] := List.length_eq_zero_iff.1 (by omega)
      subst h1
      exact ⟨p, rfl, by simp [joined]⟩
  | n + 1, p, x => by
    simp only [manyS, List.mem_append, List.mem_flatMap, List.mem_singleton]
    constructor
    · rintro ⟨r, ⟨e, he, hr⟩ | rfl, rfl⟩
      · obtain ⟨u, w, l, h1, h2, h3, rfl⟩ := (hb.iff p.2 e).1 he
        obtain ⟨more, rest, g1, g2, g3, g4⟩ := (many_items hb n _ _).1 ⟨r, hr, rfl⟩
        simp only at g3 g4
        have hd : q.drop (p.2 + u.length + w.length) = l := by rw [← List.drop_drop, ← List.drop_drop, h1]; simp
        refine ⟨(u, w) :: more, rest, by simp [g1], ?_, ?_, ?_⟩
        · intro v hv
          rcases List.mem_cons.1 hv with rfl | hv
          · exact ⟨h2, h3⟩
          · exact g2 v hv
        · rw [h1, ← hd, g3, joined_cons]; simp
        · rw [g4, joined_cons]; simp; omega
      · exact ⟨[], q.drop r.2, by simp, by simp [Items], by simp [joined], by simp [joined]⟩
    · rintro ⟨more, rest, h1, h2, h3, rfl⟩
      match more, h1 with
      | [], _ => exact ⟨p, Or.inr rfl, by simp [joined]⟩
      | (u, w) :: more, h1 =>
        have hw := h2 (u, w) (by simp)
        rw [joined_cons, List.append_assoc, List.append_assoc] at h3
        have hin := (hb.iff p.2 _).2 ⟨u, w, joined more ++ rest, h3, hw.1, hw.2, rfl⟩
        have hd : q.drop (p.2 + u.length + w.length) = joined more ++ rest := by rw [← List.drop_drop, ← List.drop_drop, h3]; simp
        obtain ⟨r, hr, g⟩ := (many_items hb n (p.2, p.2 + u.length + w.length) _).2 ⟨more, rest, by simpa using h1, fun v hv => h2 v (List.mem_cons_of_mem _ hv), hd, rfl⟩
        refine ⟨r, Or.inl ⟨_, hin, hr⟩, ?_⟩
        rw [g, joined_cons]; simp; omega

/-- Where the repeated group can end. -/
private theorem span_items {q : List Int} {S B : Int → Bool} {T : List (Int → Bool)} {lo : Nat} {hi : Option Nat} {body : Nat → List Nat} (hb : Body q S (B :: T) lo hi body)
    {k : Quant} (hk : Counting k) (j x : Nat) : (∃ r ∈ spans q.length k body j, r.2 = x) ↔
      ∃ more rest, InBounds k.lo k.hi more.length ∧ Items S (B :: T) lo hi more ∧ q.drop j = joined more ++ rest ∧ x = j + (joined more).length := by
  have hsp : spans q.length k body j = (mustS body k.lo (j, j)).flatMap (manyS body (k.extra q.length)) := by simp only [spans, hk.2.1]
  rw [hsp]
  simp only [List.mem_flatMap]
  constructor
  · rintro ⟨r, ⟨p, hp, hr⟩, rfl⟩
    obtain ⟨m1, rest1, g1, g2, g3, g4⟩ := (must_items hb _ _ _).1 ⟨p, hp, rfl⟩
    obtain ⟨m2, rest2, f1, f2, f3, f4⟩ := (many_items hb _ _ _).1 ⟨r, hr, rfl⟩
    simp only at g3 g4
    refine ⟨m1 ++ m2, rest2, ⟨by simp; omega, fun h hh => ?_⟩, ?_, ?_, ?_⟩
    · simp only [Quant.extra, hh] at f1
      have hs := hk.1
      simp only [Quant.sane, hh, Bool.and_eq_true, decide_eq_true_eq] at hs
      simp only [List.length_append]; omega
    · intro v hv
      rcases List.mem_append.1 hv with hv | hv
      · exact g2 v hv
      · exact f2 v hv
    · rw [g4, ← List.drop_drop, g3, List.drop_left] at f3
      rw [g3, f3, joined_append, List.append_assoc]
    · rw [f4, g4, joined_append]; simp; omega
  · rintro ⟨more, rest, ⟨h1, h2⟩, h3, h4, rfl⟩
    have hlen : ∀ more : List (List Int × List Int), Items S (B :: T) lo hi more → more.length ≤ (joined more).length := by
      intro more
      induction more with
      | nil => simp
      | cons w more ih =>
        intro hi
        have h1 := ih (fun v hv => hi v (List.mem_cons_of_mem _ hv))
        obtain ⟨⟨c, v, h2, _⟩, _⟩ := hi w (by simp)
        rw [joined_cons, h2]; simp; omega
    have e : joined more = joined (more.take k.lo) ++ joined (more.drop k.lo) := by rw [← joined_append, List.take_append_drop]
    have hq := congrArg List.length h4
    simp only [List.length_drop, List.length_append] at hq
    rw [e, List.append_assoc] at h4
    obtain ⟨p, hp, hp2⟩ := (must_items hb k.lo (j, j) _).2 ⟨more.take k.lo, joined (more.drop k.lo) ++ rest, by simp; omega, fun v hv => h3 v (List.mem_of_mem_take hv), h4, rfl⟩
    simp only at hp2
    obtain ⟨r, hr, hr2⟩ := (many_items hb (k.extra q.length) p _).2 ⟨more.drop k.lo, rest, by
      simp only [Quant.extra, List.length_drop]
      split
      · have := hlen more h3; omega
      · rename_i h hh
        have := h2 h hh; omega, fun v hv => h3 v (List.mem_of_mem_drop hv), by rw [hp2, ← List.drop_drop, h4, List.drop_left], rfl⟩
    refine ⟨r, ⟨p, hp, hr⟩, ?_⟩
    rw [hr2, hp2, e]; simp; omega

private theorem count_body (q : List Int) (a b : Atom) (s : List Atom) {k : Quant} (hk : Counting k) :
    Body q a.set (b.set :: s.map Atom.set) k.lo k.hi ((Alts.last false (.cons b .once (tailSq a k s))).picks q) := by
  constructor
  intro j e
  have := tail_picks q a hk (b :: s) j e
  rw [List.map_cons] at this
  rw [← this]
  simp [Alts.picks, hatPicks, tailSq]

/-- The ends of the lists, and what may come behind them. -/
private theorem mem_count {a : Atom} (hst : a.steady = true) (b : Atom) (s : List Atom) {k r : Quant} (hk : Counting k) (hr : Counting r) (q : List Int)
    (v : Nat × List (Nat × Nat)) : v ∈ caps q (countSq a b s k r) 0 ↔
      ∃ t rest, q = t ++ rest ∧ CountedText a.set ((b :: s).map Atom.set) k.lo k.hi r.lo r.hi t ∧ v.2 = [] ∧ v.1 ∈ (Sq.nil true).picks q t.length := by
  have hg := not_group (a := a) (by simp [hst])
  have e2 : caps q (countSq a b s k r) 0 = (k.counts (runLen a.set (q.drop 0))).flatMap (fun n =>
      caps q (.cons (.group false (.last false (.cons b .once (tailSq a k s)))) r (.nil true)) (0 + n)) := by
    rw [countSq]
    cases hw : a <;> first | exact absurd hw (hg _ _) | rfl
  rw [e2]
  simp only [List.mem_flatMap, some_counts hk, List.drop_zero, Nat.zero_add, caps, List.mem_map]
  constructor
  · rintro ⟨_, ⟨w, l, h1, rfl, h2⟩, p, hp, u, ⟨x, hx, rfl⟩, rfl⟩
    obtain ⟨more, rest, g1, g2, g3, g4⟩ := (span_items (count_body q a b s hk) hr w.length p.2).1 ⟨p, hp, rfl⟩
    have hl : l = joined more ++ rest := by
      rw [← g3]; simp [h1]
    refine ⟨w ++ joined more, rest, by rw [h1, hl, List.append_assoc], ⟨w, more, rfl, h2, g1, g2⟩, by simp, ?_⟩
    rw [List.length_append, ← g4]; exact hx
  · rintro ⟨t, rest, h1, ⟨w, more, rfl, h2, h3, h4⟩, h5, h6⟩
    have h1' : q = w ++ (joined more ++ rest) := by rw [h1, joined, List.append_assoc]
    obtain ⟨p, hp, hp2⟩ := (span_items (count_body q a b s hk) hr w.length (w.length + (joined more).length)).2 ⟨more, rest, h3, h4, by rw [h1']; simp, rfl⟩
    refine ⟨w.length, ⟨w, _, h1', rfl, h2⟩, p, hp, (v.1, []), ⟨v.1, ?_, rfl⟩, ?_⟩
    · rw [hp2]; rw [List.length_append] at h6; exact h6
    · simp only [Bool.false_eq_true, if_false]
      exact Prod.ext rfl h5.symm

private theorem count_shallow {a b : Atom} {s : List Atom} {k r : Quant} (ha : a.ok = true) (hl : a.listing = true) (hk : Counting k) (hr : Counting r) (hs : Seps (b :: s)) :
    shallow (countSq a b s k r) = true := by
  have hst := listing_steady hl
  have hstb := listing_steady (hs b (by simp)).2
  have i := fine ha hl hk s (fun c hc => hs c (List.mem_cons_of_mem _ hc))
  have h1 : flat (.cons b .once (tailSq a k s)) = true := by
    simp [flat, hstb, Quant.sane, Quant.ok, Quant.lo, Quant.hi, i.flat]
  have h2 : repShallow false (.last false (.cons b .once (tailSq a k s))) r = true := by
    simp [repShallow, flats, h1, Alts.list, hr.2.1, Sq.eats, Quant.lo]
  have h3 : shallow (.cons (.group false (.last false (.cons b .once (tailSq a k s)))) r (.nil true)) = true := by
    cases r <;> first | (simp [shallow, h2]; done) | simp [shallow, flats, h1, Alts.list]
  have hg := not_group (a := a) (by simp [hst])
  have h4 : shallow (countSq a b s k r) = ((a.steady || a.skips) && k.sane && shallow (.cons (.group false (.last false (.cons b .once (tailSq a k s)))) r (.nil true))) := by
    rw [countSq]
    cases hq : a <;> first | exact absurd hq (hg _ _) | rfl
  rw [h4, h3, hst, hk.1]; rfl

private theorem sep_len : ∀ (T : List (Int → Bool)) (u : List Int), SepText T u → u.length = T.length
  | [], u, h => by rw [SepText] at h; subst h; rfl
  | S :: T, _, ⟨d, v, rfl, _, h2⟩ => by simp [sep_len T v h2]

private theorem after_item {S B : Int → Bool} {T : List (Int → Bool)} {lo : Nat} {hi : Option Nat} (h1 : ∀ c, S c = true → B c = false)
    {more : List (List Int × List Int)} {rest : List Int} (hm : Items S (B :: T) lo hi more) (hr : ∀ c, rest.head? = some c → S c = false ∧ B c = false) :
    ∀ c, (joined more ++ rest).head? = some c → S c = false := by
  intro c hc
  cases more with
  | nil => exact (hr c (by simpa [joined] using hc)).1
  | cons p more =>
    obtain ⟨⟨d, v', g1, g2, _⟩, _⟩ := hm p (by simp)
    have : d = c := by simpa [joined, g1] using hc
    subst this
    cases hS : S d with
    | false => rfl
    | true => rw [h1 d hS] at g2; cases g2

private theorem same_items {S B : Int → Bool} {T : List (Int → Bool)} {lo : Nat} {hi : Option Nat} (h1 : ∀ c, S c = true → B c = false)
    {rest rest' : List Int} (hr : ∀ c, rest.head? = some c → S c = false ∧ B c = false)
    (hr' : ∀ c, rest'.head? = some c → S c = false ∧ B c = false) : ∀ (more more' : List (List Int × List Int)), Items S (B :: T) lo hi more →
      Items S (B :: T) lo hi more' → joined more ++ rest = joined more' ++ rest' → joined more = joined more' ∧ rest = rest'
  | [], [], _, _, h => by simpa [joined] using h
  | [], p :: more, _, hm, h => by
    exfalso
    obtain ⟨⟨d, v', g1, g2, _⟩, _⟩ := hm p (by simp)
    have := (hr d (by simp only [joined, List.map_nil, List.flatten_nil, List.nil_append] at h; rw [h]; simp [g1])).2
    rw [g2] at this; cases this
  | p :: more, [], hm, _, h => by
    exfalso
    obtain ⟨⟨d, v', g1, g2, _⟩, _⟩ := hm p (by simp)
    have := (hr' d (by simp only [joined, List.map_nil, List.flatten_nil, List.nil_append] at h; rw [← h]; simp [g1])).2
    rw [g2] at this; cases this
  | p :: more, p' :: more', hm, hm', h => by
    obtain ⟨g2, g4⟩ := hm p (by simp)
    obtain ⟨g2', g4'⟩ := hm' p' (by simp)
    rw [joined_cons, joined_cons] at h
    simp only [List.append_assoc] at h
    obtain ⟨i0, i1⟩ := List.append_inj h (by rw [sep_len _ _ g2, sep_len _ _ g2'])
    have t1 : Items S (B :: T) lo hi more := fun v hv => hm v (List.mem_cons_of_mem _ hv)
    have t2 : Items S (B :: T) lo hi more' := fun v hv => hm' v (List.mem_cons_of_mem _ hv)
    obtain ⟨i3, i4⟩ := same_run i1 g4.2 g4'.2 (after_item h1 t1 hr) (after_item h1 t2 hr')
    obtain ⟨i5, i6⟩ := same_items h1 hr hr' more more' t1 t2 i4
    refine ⟨?_, i6⟩
    rw [joined_cons, joined_cons, i0, i3, i5]

/-- There is only one list in front of the end of a line. -/
private theorem one_list {S B : Int → Bool} {T : List (Int → Bool)} {lo nlo : Nat} {hi nhi : Option Nat} (h1 : ∀ c, S c = true → B c = false)
    (h3 : S 10 = false) (h4 : B 10 = false) {t t' rest rest' : List Int} (h : t ++ rest = t' ++ rest') (ht : CountedText S (B :: T) lo hi nlo nhi t)
    (ht' : CountedText S (B :: T) lo hi nlo nhi t') (hr : rest = [] ∨ rest.head? = some 10) (hr' : rest' = [] ∨ rest'.head? = some 10) : t = t' ∧ rest = rest' := by
  have hh : ∀ r : List Int, (r = [] ∨ r.head? = some 10) → ∀ c, r.head? = some c → S c = false ∧ B c = false := by
    rintro r (rfl | hr) c hc
    · simp at hc
    · rw [hr] at hc; cases hc; exact ⟨h3, h4⟩
  obtain ⟨w, more, rfl, hw, _, hm⟩ := ht
  obtain ⟨w', more', rfl, hw', _, hm'⟩ := ht'
  simp only [List.append_assoc] at h
  obtain ⟨rfl, i⟩ := same_run h hw.2 hw'.2 (after_item h1 hm (hh _ hr)) (after_item h1 hm' (hh _ hr'))
  obtain ⟨i1, i2⟩ := same_items h1 (hh _ hr) (hh _ hr') more more' hm hm' i
  exact ⟨by simp only [joined] at i1; rw [i1], i2⟩

/-- **C79.** Checking a list with a number of fields of a number of characters: for every `a`, and every sequence `b s` of them, that are characters, escapes (but `\s`) or classes
without `\s` that are not negated, if no character of `a` is one of `b` and neither takes a newline, and all greedy quantifiers `{…}` and `{…}'` other than `?`, not both of which may be zero:
`^a{…}(?:b s a{…}){…}'$` accepts a query if and only if the query, up to its end or a newline, is a list: fields of characters of `a`, each as long as `{…}` says, as many
behind the first as `{…}'` says, and between any two of them one separator; the match is the list (and the newline, if there is one). -/
theorem C79_check (a b : Atom) (s : List Atom) (k r : Quant) (ha : a.ok = true) (hl : a.listing = true) (hs : Seps (b :: s)) (hk : Counting k) (hr : Counting r)
    (hne : k.lo ≠ 0 ∨ r.lo ≠ 0) (h1 : ∀ c, a.set c = true → b.set c = false) (h2 : a.set 10 = false) (h3 : b.set 10 = false)
    (hsz : (k.lo + 1) + (2 * (s.length + 1) + (k.lo + 1)) * (r.lo + 1) < 4294967296)
    (hc : ∀ c ∈ [94] ++ countSpell a (b :: s) k r ++ [36], c ∈ allChars) :
    ∃ t, compile ([94] ++ countSpell a (b :: s) k r ++ [36]) = some t ∧
      ∀ (cx : Ctx), (∀ c ∈ cx.query, c ∈ allChars) → cx.query.length < 4294967295 → cx.post.head? = some 0 →
        ∀ (fuel : Nat), cx.query.length ≤ fuel → ∃ st, construct cx t fuel = .ok st ∧
          (st.accepted = true ↔ ∃ l rest, cx.query = l ++ rest ∧ CountedText a.set ((b :: s).map Atom.set) k.lo k.hi r.lo r.hi l ∧ (rest = [] ∨ rest.head? = some 10)) ∧
          ∀ l rest, cx.query = l ++ rest → CountedText a.set ((b :: s).map Atom.set) k.lo k.hi r.lo r.hi l → (rest = [] ∨ rest.head? = some 10) →
            getGroup st 0 = some (some (0, if rest = [] then (l.length : Int) else l.length + 1)) := by
  have hst := listing_steady hl
  have hsp : (Alts.last true (countSq a b s k r)).spell = [94] ++ countSpell a (b :: s) k r ++ [36] := by simp [Alts.spell, count_spell]
  obtain ⟨t, ht, h⟩ := C55_nested_partial (countSq a b s k r) (count_committed ha hl hs hk hr hne h1 h2 h3 hsz) (by rw [hsp]; exact hc)
  rw [hsp] at ht
  refine ⟨t, ht, fun cx hq hlen hn fuel hfuel => ?_⟩
  obtain ⟨st, e1, e2⟩ := h cx hq hlen (fun _ => hn) fuel hfuel
  refine ⟨st, e1, ?_⟩
  rw [ways_caps _ (count_shallow ha hl hk hr hs), List.head?_map] at e2
  have hmem : ∀ v, v ∈ caps cx.query (countSq a b s k r) 0 ↔ ∃ l rest, cx.query = l ++ rest ∧ CountedText a.set ((b :: s).map Atom.set) k.lo k.hi r.lo r.hi l ∧ (rest = [] ∨ rest.head? = some 10) ∧
      v = (if rest = [] then l.length else l.length + 1, []) := by
    intro v
    rw [mem_count hst b s hk hr]
    have key : ∀ l rest : List Int, cx.query = l ++ rest → ∀ e, e ∈ (Sq.nil true).picks cx.query l.length ↔
        (rest = [] ∨ rest.head? = some 10) ∧ e = if rest = [] then l.length else l.length + 1 := by
      intro l rest hq e
      simp only [Sq.picks, hq]
      cases rest with
      | nil => simp
      | cons c rest =>
        by_cases hc : c = 10
        · subst hc; simp
        · simp [hc]
    constructor
    · rintro ⟨l, rest, g1, g2, g3, g4⟩
      obtain ⟨g5, g6⟩ := (key l rest g1 v.1).1 g4
      exact ⟨l, rest, g1, g2, g5, Prod.ext g6 g3⟩
    · rintro ⟨l, rest, g1, g2, g3, rfl⟩
      exact ⟨l, rest, g1, g2, rfl, (key l rest g1 _).2 ⟨g3, rfl⟩⟩
  have some_of : ∀ l rest, cx.query = l ++ rest → CountedText a.set ((b :: s).map Atom.set) k.lo k.hi r.lo r.hi l → (rest = [] ∨ rest.head? = some 10) →
      (caps cx.query (countSq a b s k r) 0).head? = some (if rest = [] then l.length else l.length + 1, []) := by
    intro l rest g1 g2 g3
    have hin := (hmem _).2 ⟨l, rest, g1, g2, g3, rfl⟩
    cases heq : caps cx.query (countSq a b s k r) 0 with
    | nil => rw [heq] at hin; simp at hin
    | cons v vs =>
      obtain ⟨l', rest', g1', g2', g3', rfl⟩ := (hmem v).1 (by rw [heq]; simp)
      obtain ⟨rfl, rfl⟩ := one_list h1 h2 h3 (g1.symm.trans g1') g2 g2' g3 g3'
      rfl
  constructor
  · constructor
    · intro hacc
      cases hh : (caps cx.query (countSq a b s k r) 0).head? with
      | none => rw [hh] at e2; simp only [Option.map_none] at e2; rw [hacc] at e2; cases e2
      | some v =>
        obtain ⟨l, rest, g1, g2, g3, _⟩ := (hmem v).1 (List.mem_of_mem_head? hh)
        exact ⟨l, rest, g1, g2, g3⟩
    · rintro ⟨l, rest, g1, g2, g3⟩
      rw [some_of l rest g1 g2 g3] at e2
      exact e2.1
  · intro l rest g1 g2 g3
    rw [some_of l rest g1 g2 g3] at e2
    rw [e2.2.1]
    simp only
    split <;> simp


private theorem sep_one {S : Int → Bool} {c : Int} (h : S c = true) : SepText [S] [c] := ⟨c, [], rfl, h, rfl⟩

private theorem field {S : Int → Bool} {lo hi : Nat} {w : List Int} (h : (decide (lo ≤ w.length) && decide (w.length ≤ hi) && w.all S) = true) : FieldText S lo (some hi) w := by
  simp only [Bool.and_eq_true, decide_eq_true_eq, List.all_eq_true] at h
  exact ⟨⟨h.1.1, fun k hk => by cases hk; exact h.1.2⟩, h.2⟩

/-! A text that is such a list: four numbers with dots between them. -/
example : CountedText (Atom.esc 100).set ([Atom.esc 46].map Atom.set) 1 (some 3) 3 (some 3) (str "10.2.33.4") := by
  refine ⟨str "10", [(str ".", str "2"), (str ".", str "33"), (str ".", str "4")], by decide, field (by decide), ⟨by decide, fun h hh => by cases hh; decide⟩, ?_⟩
  intro p hp
  simp only [List.mem_cons, List.not_mem_nil, or_false] at hp
  rcases hp with rfl | rfl | rfl <;> exact ⟨sep_one (by decide), field (by decide)⟩

/-- **C79 needs a quantifier that is not zero**: a single empty field is a list, and `^\w*(?:,\w*)*$` rejects the empty query. -/
theorem C79_refuted_empty : CountedText (Atom.esc 119).set ([Atom.chr 44].map Atom.set) 0 none 0 none [] ∧ m "^\\w*(?:,\\w*)*$" "" = none :=
  ⟨⟨[], [], rfl, ⟨⟨by simp, by simp⟩, by simp⟩, ⟨by simp, by simp⟩, by simp⟩, by decide +kernel⟩

/-- **C79 has no counterpart for searching**: in `111,2,3` such a list begins at offset 1, `11,2,3`, and `\d{1,2}(?:,\d{1,2}){2}` reports `1,2,3`. -/
theorem C79_refuted_search : CountedText (Atom.esc 100).set ([Atom.chr 44].map Atom.set) 1 (some 2) 2 (some 2) (slice (str "111,2,3") 1 7) ∧
    m "\\d{1,2}(?:,\\d{1,2}){2}" "111,2,3" = some [some "1,2,3"] := by
  refine ⟨⟨str "11", [(str ",", str "2"), (str ",", str "3")], by decide, field (by decide), ⟨by decide, fun h hh => by cases hh; decide⟩, ?_⟩, by decide +kernel⟩
  intro p hp
  simp only [List.mem_cons, List.not_mem_nil, or_false] at hp
  rcases hp with rfl | rfl <;> exact ⟨sep_one (by decide), field (by decide)⟩

end ERegex.Props

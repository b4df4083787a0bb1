import Verif.Props.Joined
import Verif.Spec.Padded
/-!
# C78 : lists of items with a separator and optional blanks behind it
-/
set_option autoImplicit false
namespace ERegex.Props
open ERegex ERegex.Spec
open ERegex.Conformance (lit m)

/-- `s w* a+` (or `w+`, `w?`) -/
private def tailSq (a w : Atom) (k : Quant) : List Atom → Sq
  | [] => .cons w k (.cons a (.plus .greedy) (.nil false))
  | b :: s => .cons b .once (tailSq a w k s)
/-- `a+(?:b s w* a+)*`, `$` behind it if `d` -/
private def joinSq (d : Bool) (a b : Atom) (s : List Atom) (w : Atom) (k : Quant) : Sq :=
  .cons a (.plus .greedy) (.cons (.group false (.last false (.cons b .once (tailSq a w k s)))) (.star .greedy) (.nil d))

/-- `a+(?:s w* a+)*` (or `w+`, `w?`) -/
def padSpell (a : Atom) (s : List Atom) (w : Atom) (k : Quant) : List Int :=
  a.spell ++ [43, 40, 63, 58] ++ (s.map Atom.spell).flatten ++ (w.spell ++ k.spell) ++ a.spell ++ [43, 41, 42]

private theorem tail_spell (a w : Atom) (k : Quant) : ∀ s, (tailSq a w k s).spell = (s.map Atom.spell).flatten ++ (w.spell ++ k.spell) ++ a.spell ++ [43]
  | [] => by simp [tailSq, Sq.spell, Quant.spell, QMode.spell]
  | b :: s => by simp [tailSq, Sq.spell, Quant.spell, tail_spell a w k s]

private theorem join_spell (d : Bool) (a b : Atom) (s : List Atom) (w : Atom) (k : Quant) : (joinSq d a b s w k).spell = padSpell a (b :: s) w k ++ if d then [36] else [] := by
  cases d <;> simp [joinSq, padSpell, Alts.spell, Sq.spell, Atom.spell, Quant.spell, QMode.spell, tail_spell]

/-- What the padding may be: a greedy `w*`, `w+` or `w?`, with `w` as for the items, or `\s`. -/
def Padding (w : Atom) (k : Quant) : Prop :=
  (w.ok = true ∧ w.listing = true ∨ w = .esc 115) ∧ (k = .star .greedy ∨ k = .plus .greedy ∨ k = .opt .greedy)

/-! Cases that meet the conditions: words separated by a comma and any number of spaces, numbers separated by `;` and at most one blank. -/
example : padSpell (.esc 119) [.chr 44] (.esc 115) (.star .greedy) = str "\\w+(?:,\\s*\\w+)*" ∧ (Atom.esc 119).ok = true ∧ (Atom.esc 119).listing = true ∧
    (Atom.esc 119).set 10 = false ∧ (Atom.chr 44).set 10 = false ∧ ∀ c ∈ [94] ++ padSpell (.esc 119) [.chr 44] (.esc 115) (.star .greedy) ++ [36], c ∈ allChars := by decide +kernel
example : Padding (.esc 115) (.star .greedy) ∧ Padding (.chr 32) (.opt .greedy) ∧ Seps [.chr 44] := by
  refine ⟨⟨Or.inr rfl, Or.inl rfl⟩, ⟨Or.inl (by decide), Or.inr (Or.inr rfl)⟩, by unfold Seps; decide⟩
example : ∀ c, (Atom.esc 119).set c = true → (Atom.chr 44).set c = false ∧ (Atom.esc 115).set c = false := by
  intro c h
  have h1 : c ≠ 44 := by rintro rfl; revert h; decide
  refine ⟨by simpa [Atom.set] using h1, ?_⟩
  have h2 : c ≠ 32 := by rintro rfl; revert h; decide
  have h3 : c ≠ 9 := by rintro rfl; revert h; decide
  have h4 : c ≠ 10 := by rintro rfl; revert h; decide
  have h5 : c ≠ 11 := by rintro rfl; revert h; decide
  have h6 : c ≠ 12 := by rintro rfl; revert h; decide
  have h7 : c ≠ 13 := by rintro rfl; revert h; decide
  simp [Atom.set, escape, h2, h3, h4, h5, h6, h7]
example : PaddedText (Atom.esc 119).set ([Atom.chr 44].map Atom.set) (Atom.esc 115).set 0 none (str "a,  bc,d") :=
  ⟨str "a", [(str ",  ", str "bc"), (str ",", str "d")], by decide, by unfold ItemText; decide, by
    intro p hp
    simp only [List.mem_cons, List.not_mem_nil, or_false] at hp
    rcases hp with rfl | rfl
    · exact ⟨⟨[44], [32, 32], by decide, ⟨44, [], rfl, by decide, rfl⟩, by decide, by simp, by decide⟩, by unfold ItemText; decide⟩
    · exact ⟨⟨[44], [], by decide, ⟨44, [], rfl, by decide, rfl⟩, by decide, by simp, by decide⟩, by unfold ItemText; decide⟩⟩
example : m "^\\w+(?:,\\s*\\w+)*$" "a,  bc,d" = some [some "a,  bc,d"] ∧ m "^\\w+(?:,\\s*\\w+)*$" "a, b, " = none ∧ m "^\\w+(?:,\\s*\\w+)*$" "a ,b" = none ∧
    m "\\w+(?:,\\s*\\w+)*" "..a, b,  ;c" = some [some "a, b"] ∧ m "\\w+(?:,\\s*\\w+)*" "..a, b,  ;c" 1 = some [some "c"] ∧
    m "\\d+(?:; ?\\d+)*" "1; 22;3;  4" = some [some "1; 22;3"] ∧ m "\\d+(?:; ?\\d+)*" "1; 22;3;  4" 1 = some [some "4"] := by decide +kernel

/-! ## the conditions of the library -/

private structure Mild (w : Atom) : Prop where
  ok : w.ok = true
  feeds : w.feeds = true
  empties : w.empties = false
  heads : w.heads = w.set
  hatless : w.hatless = true
  count : w.count = 0
  plainly : w.plainly = true
  mute : w.mute = true
  lined : ∀ g n, w.lined g n = true
  isCap : w.isCap = false
  hard : ∀ J, w.hard J = true
  bulk : w.bulk = 1
  commits : ∀ t L, w.commits t L = true
  within : w.within (fun _ => true) = true
  kind : (w.steady || w.skips) = true
  shown : ∀ x, w.shown x = true → w.set x = true
  firsts : ∀ x, w.firsts x = true → w.set x = true

private theorem firsts_set {a : Atom} (ha : a.ok = true) (h : a.listing = true) {x : Int} (hx : a.firsts x = true) : a.set x = true := by
  cases a with
  | dot => simp [Atom.listing] at h
  | cls neg items dash =>
    have h := listing_steady h
    simp only [Atom.steady, Bool.and_eq_true, Bool.not_eq_true'] at h
    obtain ⟨rfl, _⟩ := h
    cases items with
    | nil => simp [Atom.firsts, headItem, Item.test] at hx; revert ha; simp [Atom.ok, Atom.set, listed, hx]
    | cons i is => simp [Atom.firsts, headItem] at hx; simp [Atom.set, listed, hx]
  | group _ _ => simp [Atom.listing, Atom.steady] at h
  | _ => exact hx

private theorem mild {w : Atom} (h : w.ok = true ∧ w.listing = true ∨ w = .esc 115) : Mild w := by
  rcases h with ⟨h1, h2⟩ | rfl
  · have e := easy h1 (listing_steady h2)
    exact ⟨h1, e.feeds, e.empties, e.heads, e.hatless, e.count, e.plainly, e.mute, e.lined, e.isCap, e.hard, e.bulk, e.commits, e.within, by simp [listing_steady h2],
      fun x => shown_set h2, fun x => firsts_set h1 h2⟩
  · exact ⟨by decide, rfl, rfl, rfl, rfl, rfl, by decide, rfl, fun _ _ => rfl, rfl, fun _ => rfl, rfl, fun _ _ => rfl, by simp [Atom.within], by decide, fun x h => h, fun x h => h⟩

private structure Fine (a w : Atom) (k : Quant) (s : List Atom) : Prop where
  ok : (tailSq a w k s).ok = true
  plainly : (tailSq a w k s).plainly = true
  feeds : (tailSq a w k s).feeds = true
  hatless : (tailSq a w k s).hatless = true
  mute : (tailSq a w k s).mute = true
  count : (tailSq a w k s).count = 0
  lined : ∀ g n, (tailSq a w k s).lined g n = true
  hard : (tailSq a w k s).hard (fun _ => false) = true
  empties : (tailSq a w k s).empties = false
  bulk : (tailSq a w k s).bulk ≤ 2 * s.length + 4
  regular : (tailSq a w k s).regular = true
  settled : settled (.nil false) (tailSq a w k s) = true
  dollar : (tailSq a w k s).dollar = false
  least : (tailSq a w k s).least ≤ s.length + 2
  flat : flat (tailSq a w k s) = true
  within : (tailSq a w k s).within (fun _ => true) = true

private theorem fine {a w : Atom} {k : Quant} (ha : a.ok = true) (hl : a.listing = true) (hw : Padding w k) (hd : ∀ c, a.set c = true → w.set c = false) : ∀ (s : List Atom), Seps s → Fine a w k s
  | [], _ => by
    have hst := listing_steady hl
    have e := easy ha hst
    have v := mild hw.1
    have hk := hw.2
    have none : ∀ f : Int → Bool, meets f (fun _ => false) = false := fun f => not_meets (fun x _ h => by cases h)
    have none' : ∀ f : Int → Bool, meets f (Sq.nil false).shown = false := fun f => not_meets (fun x _ h => by simp [Sq.shown] at h)
    have none2 : ∀ f : Int → Bool, meets f (Sq.nil false).firsts = false := fun f => not_meets (fun x _ h => by simp [Sq.firsts] at h)
    have ap : ∀ x, w.set x = true → a.set x = true → False := fun x h1 h2 => by rw [hd x h2] at h1; cases h1
    have m1 : meets w.firsts (Sq.cons a (.plus .greedy) (.nil false)).firsts = false :=
      not_meets (fun x h1 h2 => ap x (v.firsts x h1) (firsts_set ha hl (by simpa [Sq.firsts] using h2)))
    have m1' : (meets w.firsts fun x => (Sq.cons a (.plus .greedy) (.nil false)).firsts x || false) = false :=
      not_meets (fun x h1 h2 => ap x (v.firsts x h1) (firsts_set ha hl (by simpa [Sq.firsts] using h2)))
    have m2 : meets w.shown (Sq.cons a (.plus .greedy) (.nil false)).shown = false :=
      not_meets (fun x h1 h2 => ap x (v.shown x h1) (shown_set hl (by simpa [Sq.shown, Quant.lo] using h2)))
    have m3 : meets w.set (Sq.cons a (.plus .greedy) (.nil false)).first = false :=
      not_meets (fun x h1 h2 => ap x h1 (by simpa [Sq.first, Quant.lo] using h2))
    have vk := v.kind
    simp only [Bool.or_eq_true] at vk
    constructor
    · rcases hk with rfl | rfl | rfl <;> simp [tailSq, Sq.ok, ha, v.ok, Quant.ok]
    · rcases hk with rfl | rfl | rfl <;> simp [tailSq, Sq.plainly, e.plainly, e.feeds, e.mute, v.plainly, v.feeds, v.mute, Quant.sane, Quant.ok, Quant.hi, Quant.lo]
    · simp [tailSq, Sq.feeds, e.feeds, Quant.lo]
    · simp [tailSq, Sq.hatless, e.hatless, v.hatless]
    · simp [tailSq, Sq.mute, e.count, v.count]
    · simp [tailSq, Sq.count, e.count, v.count]
    · simp [tailSq, Sq.lined, e.lined, v.lined]
    · rcases hk with rfl | rfl | rfl <;> (simp only [tailSq, Sq.hard, v.hard, Quant.mode, m1']; simp [e.hard, Sq.firsts, none])
    · rcases hk with rfl | rfl | rfl <;> simp [tailSq, Sq.empties, e.empties, Quant.lo]
    · rcases hk with rfl | rfl | rfl <;> simp [tailSq, Sq.bulk, e.bulk, v.bulk, Quant.lo]
    · have h1 : (Sq.cons a (.plus .greedy) (.nil false)).regular = true := by
        simp [Sq.regular, ha, hst, Quant.sane, Quant.ok, Quant.lo, Quant.hi, pieceOk, Quant.mode, Quant.fixed, Sq.nullable, keeps, none']
      rcases hk with rfl | rfl | rfl <;> (rw [tailSq, Sq.regular, h1]; simp [v.ok, vk, Quant.sane, Quant.ok, Quant.lo, Quant.hi, pieceOk, Quant.mode, Quant.fixed, keeps, m2, m3])
    · have h1 : (meets w.set fun x => (Sq.cons a (.plus .greedy) (.nil false)).first x || ((Sq.cons a (.plus .greedy) (.nil false)).nullable && (Sq.nil false).begins x)) = false :=
        not_meets (fun x h1 h2 => ap x h1 (by simpa [Sq.first, Quant.lo, Sq.nullable] using h2))
      have h2 : settled (.nil false) (Sq.cons a (.plus .greedy) (.nil false)) = true := by simp [settled, Quant.mode, Quant.fixed, Sq.nullable, Sq.voids]
      rcases hk with rfl | rfl | rfl <;> (rw [tailSq, settled, h2, h1]; simp [Quant.mode])
    · simp [tailSq, Sq.dollar]
    · rcases hk with rfl | rfl | rfl <;> simp [tailSq, Sq.least, Quant.lo]
    · rcases hk with rfl | rfl | rfl <;> simp [tailSq, flat, hst, vk, Quant.sane, Quant.ok, Quant.lo, Quant.hi]
    · simp [tailSq, Sq.within, e.within, v.within]
  | b :: s, h => by
    have hb := h b (by simp)
    have hstb := listing_steady hb.2
    have e := easy hb.1 hstb
    have i := fine ha hl hw hd s (fun c hc => h c (List.mem_cons_of_mem _ hc))
    have ib := i.bulk
    have il := i.least
    constructor
    · simp [tailSq, Sq.ok, hb.1, Quant.ok, i.ok]
    · simp [tailSq, Sq.plainly, e.plainly, e.feeds, e.mute, Quant.sane, Quant.ok, Quant.hi, Quant.lo, Quant.isOnce, i.plainly]
    · simp [tailSq, Sq.feeds, i.feeds]
    · simp [tailSq, Sq.hatless, e.hatless, i.hatless]
    · simp [tailSq, Sq.mute, e.count, i.mute]
    · simp [tailSq, Sq.count, e.count, i.count]
    · simp [tailSq, Sq.lined, e.lined, i.lined]
    · simp [tailSq, Sq.hard, e.hard, e.isCap, i.hard]
    · simp [tailSq, Sq.empties, e.empties, Quant.lo]
    · simp [tailSq, Sq.bulk, e.bulk, Quant.lo]; omega
    · simp [tailSq, Sq.regular, hb.1, hstb, Quant.sane, Quant.ok, Quant.lo, Quant.hi, pieceOk, Quant.mode, Quant.fixed, i.regular]
    · simp [tailSq, settled, Quant.mode, Quant.fixed, i.settled]
    · simp [tailSq, Sq.dollar, i.dollar]
    · simp [tailSq, Sq.least, Quant.lo]; omega
    · simp [tailSq, flat, hstb, Quant.sane, Quant.ok, Quant.lo, Quant.hi, i.flat]
    · simp [tailSq, Sq.within, e.within, i.within]

private theorem tail_commits {a w : Atom} {k : Quant} (ha : a.ok = true) (hl : a.listing = true) (hw : Padding w k) (hd : ∀ c, a.set c = true → w.set c = false)
    {L : Int → Bool} (h : ∀ c, a.set c = true → L c = false) : ∀ (s : List Atom), Seps s → (tailSq a w k s).commits false L = true
  | [], _ => by
    have e := easy ha (listing_steady hl)
    have v := mild hw.1
    have hk := hw.2
    have hm : meets a.set ((Sq.nil false).upcoming L) = false := not_meets (fun x h1 h2 => by
      simp [Sq.upcoming, Sq.heads, Sq.empties] at h2
      rw [h x h1] at h2; cases h2)
    have hm' : meets w.set ((Sq.cons a (.plus .greedy) (.nil false)).upcoming L) = false := not_meets (fun x h1 h2 => by
      simp [Sq.upcoming, Sq.heads, Sq.empties, e.heads, e.empties, Quant.lo] at h2
      rw [hd x h2] at h1; cases h1)
    rcases hk with rfl | rfl | rfl <;>
      simp [tailSq, Sq.commits, v.commits, v.feeds, v.heads, e.commits, e.feeds, e.heads, e.empties, Sq.empties, Quant.sane, Quant.ok, Quant.lo, Quant.hi, Quant.mode, decides, Quant.fixed, hm, hm']
  | b :: s, hs => by
    have hb := hs b (by simp)
    have e := easy hb.1 (listing_steady hb.2)
    simp [tailSq, Sq.commits, e.commits, tail_commits ha hl hw hd h s (fun c hc => hs c (List.mem_cons_of_mem _ hc))]

private theorem join_committed {a b w : Atom} {k : Quant} {s : List Atom} (ha : a.ok = true) (hl : a.listing = true) (hw : Padding w k) (hd : ∀ c, a.set c = true → w.set c = false) (hs : Seps (b :: s)) (h1 : ∀ c, a.set c = true → b.set c = false)
    (h2 : a.set 10 = false) (h3 : b.set 10 = false) (hn : s.length < 2147483640) : (Alts.last true (joinSq true a b s w k)).committed = true := by
  have hst : a.steady = true := listing_steady hl
  have e := easy ha hst
  have hb := (hs b (by simp)).1
  have hstb := listing_steady (hs b (by simp)).2
  have eb := easy hb hstb
  have i := fine ha hl hw hd s (fun c hc => hs c (List.mem_cons_of_mem _ hc))
  simp only [Alts.committed, Bool.and_eq_true]
  refine ⟨⟨⟨⟨⟨⟨?_, ?_⟩, ?_⟩, ?_⟩, ?_⟩, ?_⟩, ?_⟩
  · simp [joinSq, Alts.ok, Sq.ok, Atom.ok, ha, hb, Quant.ok, Sq.empty, i.ok]
  · simp [joinSq, i.feeds, i.plainly, i.hatless, i.mute, i.count, Alts.plainly, Sq.plainly, Sq.feeds, e.plainly, e.feeds, e.hatless, e.mute, e.count, Sq.empty, Sq.hatless, Atom.hatless, Alts.hatless, Quant.sane,
      Quant.ok, Quant.lo, Quant.hi, Quant.fixed, Quant.isOnce, eb.plainly, eb.feeds, eb.hatless, eb.mute, eb.count, Atom.plainly, Atom.steady, Alts.feeds, Atom.feeds, Atom.mute, Alts.mute, Sq.mute, Atom.count]
  · simp [joinSq, i.lined, Alts.aligned, Sq.lined, e.lined, eb.lined, Atom.lined, Alts.lined]
  · have hc : ∀ L : Int → Bool, (∀ c, a.set c = true → L c = false) → (tailSq a w k s).commits false L = true :=
      fun L hL => tail_commits ha hl hw hd hL s (fun c hc => hs c (List.mem_cons_of_mem _ hc))
    simp [joinSq, i.feeds, i.hatless, i.empties, Alts.commits, Sq.commits, e.commits, e.feeds, e.heads, e.empties, e.hatless, eb.commits, eb.feeds, eb.heads, eb.empties, eb.hatless, Sq.hatless, Atom.hatless, Alts.hatless, Sq.empties, Atom.empties, Alts.empties,
      Quant.sane, Quant.ok, Quant.lo, Quant.hi, Quant.mode, decides, Quant.fixed, Sq.heads, Atom.heads, Alts.heads, Atom.commits, Atom.feeds, Alts.feeds, Sq.feeds]
    refine ⟨not_meets (fun x h4 h5 => ?_), not_meets (fun x h4 h5 => ?_), hc _ (fun x h4 => ?_)⟩
    · simp [Sq.upcoming, Sq.heads, eb.heads, eb.empties, Atom.heads, Alts.heads, Sq.empties, Quant.lo, Atom.empties, Alts.empties] at h5
      rcases h5 with h5 | rfl
      · rw [h1 x h4] at h5; cases h5
      · rw [h2] at h4; cases h4
    · simp [Sq.upcoming, Sq.heads, Sq.empties] at h4 h5
      subst h5
      rw [h3] at h4; cases h4
    · have : x ≠ 10 := by rintro rfl; rw [h2] at h4; cases h4
      simp [Sq.upcoming, Sq.heads, Sq.empties, h1 x h4, this]
  · simp [Alts.atFront]
  · simp [joinSq, i.hard, i.empties, Alts.hard, Sq.hard, Atom.hard, e.hard, e.isCap, eb.hard, eb.isCap, eb.slips, eb.within, eb.empties, hstb, Atom.isCap, e.slips, Sq.slips, Atom.slips, Alts.slips, Quant.mode, Quant.lo, Quant.hi, Sq.empty, Sq.empties,
      Atom.empties, Alts.empties, Atom.steady, Quant.isOnce, e.within, Atom.within, Alts.within, Sq.within, Sq.firsts, i.within]
    exact Or.inr (Or.inl eb.isCap)
  · simp [joinSq, Alts.bulk, Sq.bulk, e.bulk, eb.bulk, Atom.bulk, Quant.lo]; have := i.bulk; omega

private theorem join_regular {a b w : Atom} {k : Quant} {s : List Atom} (ha : a.ok = true) (hl : a.listing = true) (hw : Padding w k) (hd : ∀ c, a.set c = true → w.set c = false) (hs : Seps (b :: s)) (h1 : ∀ c, a.set c = true → b.set c = false)
    (hn : s.length < 2147483640) : (Alts.last false (joinSq false a b s w k)).capRegular = true := by
  have hst : a.steady = true := listing_steady hl
  have hb := (hs b (by simp)).1
  have hlb := (hs b (by simp)).2
  have hstb := listing_steady hlb
  have eb := easy hb hstb
  have i := fine ha hl hw hd s (fun c hc => hs c (List.mem_cons_of_mem _ hc))
  have none2 : ∀ f : Int → Bool, meets f (Sq.nil false).looks = false := fun f => not_meets (fun x _ h => by simp [Sq.looks] at h)
  have hi : (Sq.cons b .once (tailSq a w k s)).regular = true := by
    simp [Sq.regular, hb, hstb, Quant.sane, Quant.ok, Quant.lo, Quant.hi, pieceOk, Quant.mode, Quant.fixed, i.regular]
  have hm : meets a.shown (Sq.cons (.group false (.last false (.cons b .once (tailSq a w k s)))) (.star .greedy) (.nil false)).looks = false := by
    refine not_meets (fun x h4 h5 => ?_)
    have h5 : b.shown x = true := by simpa [Sq.looks, Alts.head, Sq.shown, Quant.lo] using h5
    have := h1 x (shown_set hl h4)
    rw [shown_set hlb h5] at this; cases this
  have hrep : repOk false (.last false (.cons b .once (tailSq a w k s))) (.star .greedy) (.nil false) = true := by
    simp [repOk, Alts.bare, Alts.list, hi, Alts.head, Quant.sane, Quant.ok, Quant.lo, Quant.hi, Quant.mode, Quant.fixed, none2, Sq.voids]
    simp [i.dollar, Sq.dollar, Sq.empty, Sq.least, Sq.eats, Quant.lo]
    have := i.least; omega
  have hat : atomOk a (.plus .greedy) (.cons (.group false (.last false (.cons b .once (tailSq a w k s)))) (.star .greedy) (.nil false)) = true := by
    simp [atomOk, Quant.mode, clings, hm, Sq.voids, Quant.lo]
  have hcap : (joinSq false a b s w k).capOk = true := by
    have hg := not_group (a := a) (by simp [hst])
    have hr : (Sq.cons (.group false (.last false (.cons b .once (tailSq a w k s)))) (.star .greedy) (.nil false)).capOk = true := by
      rw [Sq.capOk]
      · simp [hrep, Sq.capOk]
      · simp
    rw [joinSq]
    cases hq : a <;> first | exact absurd hq (hg _ _) | (rw [hq] at ha hst hat hr; simp only [Sq.capOk] at hr; simp only [Sq.capOk, ha, hst, hat, hr]; simp [Quant.sane, Quant.ok, Quant.hi])
  have htidy : (joinSq false a b s w k).tidy 0 0 = true := by
    cases a <;> first | (simp [Atom.steady] at hst; done) | simp [joinSq, Sq.tidy]
  have hsl : (joinSq false a b s w k).startsLoop = true := by
    cases hq : a <;> first | (rw [hq] at hst; simp [Atom.steady] at hst; done) | (rw [hq] at hst; simp [joinSq, Sq.startsLoop, hst, Sq.voids, Quant.lo])
  simp [Alts.capRegular, Alts.capSane, hcap, htidy, hsl]
  simp [joinSq, Sq.empty]

/-! ## the matches -/

private theorem greedy {w : Atom} {k : Quant} (h : Padding w k) : k.mode ≠ .possessive := by
  rcases h.2 with rfl | rfl | rfl <;> simp [Quant.mode]

private theorem pad_counts {S : Int → Bool} {k : Quant} (hk : k.mode ≠ .possessive) {l : List Int} {n : Nat} : n ∈ k.counts (runLen S l) ↔
    ∃ w r, l = w ++ r ∧ w.length = n ∧ k.lo ≤ w.length ∧ (∀ h, k.hi = some h → w.length ≤ h) ∧ ∀ c ∈ w, S c = true := by
  rw [mem_greedy _ _ _ hk, le_run, Allowed]
  constructor
  · rintro ⟨⟨h1, h2⟩, w, r, h3, rfl, h4⟩
    exact ⟨w, r, h3, rfl, h1, h2, h4⟩
  · rintro ⟨w, r, h3, rfl, h1, h2, h4⟩
    exact ⟨⟨h1, h2⟩, w, r, h3, rfl, h4⟩

private theorem tail_picks (q : List Int) (a pd : Atom) (k : Quant) (hm : k.mode ≠ .possessive) : ∀ (s : List Atom) (j e : Nat), e ∈ (tailSq a pd k s).picks q j ↔
    ∃ u w r, q.drop j = u ++ (w ++ r) ∧ PadText (s.map Atom.set) pd.set k.lo k.hi u ∧ ItemText a.set w ∧ e = j + u.length + w.length
  | [], j, e => by
    simp only [tailSq, Sq.picks, List.mem_flatMap, List.mem_singleton, plus_texts, pad_counts hm, List.map_nil]
    constructor
    · rintro ⟨_, ⟨v, r', g1, rfl, g2, g3, g4⟩, n, ⟨w, r, h1, rfl, h2, h3⟩, rfl⟩
      rw [← List.drop_drop, g1, List.drop_left] at h1
      exact ⟨v, w, r, by rw [g1, h1], ⟨[], v, rfl, rfl, g2, g3, g4⟩, ⟨h2, h3⟩, by omega⟩
    · rintro ⟨_, w, r, h1, ⟨u, v, rfl, hu, g2, g3, g4⟩, ⟨h2, h3⟩, rfl⟩
      rw [SepText] at hu
      subst hu
      refine ⟨v.length, ⟨v, w ++ r, h1, rfl, g2, g3, g4⟩, w.length, ⟨w, r, ?_, rfl, h2, h3⟩, by simp⟩
      rw [← List.drop_drop, h1]; simp
  | b :: s, j, e => by
    simp only [tailSq, Sq.picks, counts_once, List.mem_flatMap, List.map_cons]
    constructor
    · rintro ⟨n, hn, hk⟩
      split at hn
      · rename_i hsep
        simp only [List.mem_singleton] at hn
        subst hn
        obtain ⟨_, w, r, h1, ⟨u, y, rfl, h2, g⟩, h3, rfl⟩ := (tail_picks q a pd k hm s _ e).1 hk
        obtain ⟨v, r', g1, g2, g3⟩ := le_run.1 hsep
        match v, g2 with
        | [c], _ =>
          refine ⟨c :: (u ++ y), w, r, ?_, ⟨c :: u, y, rfl, ⟨c, u, rfl, g3 c (by simp), h2⟩, g⟩, h3, by simp; omega⟩
          rw [← List.drop_drop, g1] at h1
          rw [g1]
          simpa using h1
      · simp at hn
    · rintro ⟨_, w, r, h1, ⟨_, y, rfl, ⟨c, u, rfl, h4, h5⟩, g⟩, h2, rfl⟩
      have hsep : 1 ≤ runLen b.set (q.drop j) := le_run.2 ⟨[c], u ++ y ++ (w ++ r), by simpa using h1, rfl, by simpa using h4⟩
      refine ⟨1, by simp [hsep], (tail_picks q a pd k hm s _ _).2 ⟨u ++ y, w, r, ?_, ⟨u, y, rfl, h5, g⟩, h2, by simp; omega⟩⟩
      rw [← List.drop_drop, h1]; simp

private theorem item_picks (q : List Int) (a b : Atom) (s : List Atom) (pd : Atom) (k : Quant) (hk : k.mode ≠ .possessive) (j e : Nat) : e ∈ (Alts.last false (.cons b .once (tailSq a pd k s))).picks q j ↔
    ∃ u w r, q.drop j = u ++ (w ++ r) ∧ PadText ((b :: s).map Atom.set) pd.set k.lo k.hi u ∧ ItemText a.set w ∧ e = j + u.length + w.length := by
  rw [← tail_picks q a pd k hk (b :: s) j e]
  simp [Alts.picks, hatPicks, tailSq]

/-- Items, each with the separator in front of it. -/
private def Items (S : Int → Bool) (P : List Int → Prop) (more : List (List Int × List Int)) : Prop := ∀ p ∈ more, P p.1 ∧ ItemText S p.2
private def joined (more : List (List Int × List Int)) : List Int := (more.map (fun p => p.1 ++ p.2)).flatten

private theorem many_items (q : List Int) (a b : Atom) (s : List Atom) (pd : Atom) (k : Quant) (hk : k.mode ≠ .possessive) : ∀ (f : Nat) (p r : Nat × Nat),
    r ∈ manyS (fun j => (Alts.last false (.cons b .once (tailSq a pd k s))).picks q j) f p →
    ∃ more rest, Items a.set (PadText ((b :: s).map Atom.set) pd.set k.lo k.hi) more ∧ q.drop p.2 = joined more ++ rest ∧ r.2 = p.2 + (joined more).length
  | 0, p, r, h => by
    simp only [manyS, List.mem_singleton] at h
    subst h
    exact ⟨[], q.drop r.2, by simp [Items], by simp [joined], by simp [joined]⟩
  | f + 1, p, r, h => by
    simp only [manyS, List.mem_append, List.mem_flatMap, List.mem_singleton] at h
    rcases h with ⟨e, he, hr⟩ | rfl
    · obtain ⟨u, w, l, h1, h2, h3, rfl⟩ := (item_picks q a b s pd k hk p.2 e).1 he
      obtain ⟨more, rest, h4, h5, h6⟩ := many_items q a b s pd k hk f _ r hr
      simp only at h5 h6
      have hd : q.drop (p.2 + u.length + w.length) = l := by
        rw [← List.drop_drop, ← List.drop_drop, h1]; simp
      refine ⟨(u, w) :: more, rest, ?_, ?_, ?_⟩
      · intro v hv
        rcases List.mem_cons.1 hv with rfl | hv
        · exact ⟨h2, h3⟩
        · exact h4 v hv
      · rw [h1, ← hd, h5]; simp [joined]
      · rw [h6]; simp [joined]; omega
    · exact ⟨[], q.drop r.2, by simp [Items], by simp [joined], by simp [joined]⟩

private theorem items_many (q : List Int) (a b : Atom) (s : List Atom) (pd : Atom) (k : Quant) (hk : k.mode ≠ .possessive) : ∀ (more : List (List Int × List Int)) (f : Nat) (p : Nat × Nat) (rest : List Int), more.length ≤ f →
    Items a.set (PadText ((b :: s).map Atom.set) pd.set k.lo k.hi) more → q.drop p.2 = joined more ++ rest →
    ∃ r ∈ manyS (fun j => (Alts.last false (.cons b .once (tailSq a pd k s))).picks q j) f p, r.2 = p.2 + (joined more).length
  | [], f, p, rest, _, _, _ => by
    refine ⟨p, ?_, by simp [joined]⟩
    cases f <;> simp [manyS]
  | _ :: more, 0, p, rest, h, _, _ => by simp at h
  | (u, w) :: more, f + 1, p, rest, hf, hi, hd => by
    have hw := hi (u, w) (by simp)
    have e : joined ((u, w) :: more) = u ++ (w ++ joined more) := by simp [joined]
    rw [e, List.append_assoc, List.append_assoc] at hd
    have hin := (item_picks q a b s pd k hk p.2 _).2 ⟨u, w, joined more ++ rest, hd, hw.1, hw.2, rfl⟩
    have hd' : q.drop (p.2 + u.length + w.length) = joined more ++ rest := by
      rw [← List.drop_drop, ← List.drop_drop, hd]; simp
    obtain ⟨r, hr, hr2⟩ := items_many q a b s pd k hk more f (p.2, p.2 + u.length + w.length) rest (by simpa using hf) (fun v hv => hi v (List.mem_cons_of_mem _ hv)) hd'
    refine ⟨r, ?_, ?_⟩
    · simp only [manyS, List.mem_append, List.mem_flatMap]
      exact Or.inl ⟨_, hin, hr⟩
    · rw [hr2, e]; simp; omega

private theorem join_caps (d : Bool) {a : Atom} (hst : a.steady = true) (b : Atom) (s : List Atom) (pd : Atom) (k : Quant) (q : List Int) (x : Nat) : caps q (joinSq d a b s pd k) x =
    ((Quant.plus .greedy).counts (runLen a.set (q.drop x))).flatMap (fun n =>
      (manyS (fun j => (Alts.last false (.cons b .once (tailSq a pd k s))).picks q j) q.length (x + n, x + n)).flatMap (fun p => ((Sq.nil d).picks q p.2).map (fun e => (e, [])))) := by
  have hg := not_group (a := a) (by simp [hst])
  have e1 : ∀ y, caps q (.cons (.group false (.last false (.cons b .once (tailSq a pd k s)))) (.star .greedy) (.nil d)) y =
      (manyS (fun j => (Alts.last false (.cons b .once (tailSq a pd k s))).picks q j) q.length (y, y)).flatMap (fun p => ((Sq.nil d).picks q p.2).map (fun e => (e, []))) := by
    intro y
    simp [caps, spans, Quant.mode, Quant.lo, mustS, Quant.extra, Quant.hi, Function.comp_def]
  have e2 : caps q (joinSq d a b s pd k) x = ((Quant.plus .greedy).counts (runLen a.set (q.drop x))).flatMap (fun n =>
      caps q (.cons (.group false (.last false (.cons b .once (tailSq a pd k s)))) (.star .greedy) (.nil d)) (x + n)) := by
    rw [joinSq]
    cases hw : a <;> first | exact absurd hw (hg _ _) | rfl
  rw [e2]
  simp only [e1]

/-- The ends of the lists that begin at `x`, and what may come behind them. -/
private theorem mem_join (d : Bool) {a : Atom} (hst : a.steady = true) (b : Atom) (s : List Atom) (pd : Atom) (k : Quant) (hk : k.mode ≠ .possessive) (q : List Int) (x : Nat) (r : Nat × List (Nat × Nat)) :
    r ∈ caps q (joinSq d a b s pd k) x ↔ ∃ t rest, q.drop x = t ++ rest ∧ PaddedText a.set ((b :: s).map Atom.set) pd.set k.lo k.hi t ∧ r.2 = [] ∧ r.1 ∈ (Sq.nil d).picks q (x + t.length) := by
  rw [join_caps d hst]
  simp only [List.mem_flatMap, List.mem_map, plus_texts]
  constructor
  · rintro ⟨n, ⟨w, l, h1, rfl, h2, h3⟩, p, hp, e, he, rfl⟩
    obtain ⟨more, rest, h4, h5, h6⟩ := many_items q a b s pd k hk _ _ _ hp
    simp only at h5 h6
    rw [← List.drop_drop, h1, List.drop_left] at h5
    refine ⟨w ++ joined more, rest, by rw [h1, h5, List.append_assoc], ⟨w, more, rfl, ⟨h2, h3⟩, h4⟩, rfl, ?_⟩
    · simp only [List.length_append]
      rw [h6, Nat.add_assoc] at he
      exact he
  · rintro ⟨t, rest, h1, ⟨w, more, rfl, hw, hm⟩, h3, h4⟩
    have hlen : ∀ more : List (List Int × List Int), Items a.set (PadText ((b :: s).map Atom.set) pd.set k.lo k.hi) more → more.length ≤ (joined more).length := by
      intro more
      induction more with
      | nil => simp
      | cons w more ih =>
        intro hi
        have h1 := ih (fun v hv => hi v (List.mem_cons_of_mem _ hv))
        have h2 := List.length_pos_iff.2 (hi w (by simp)).2.1
        simp [joined] at h1 ⊢; omega
    have h1' : q.drop x = w ++ (joined more ++ rest) := by rw [h1, joined, List.append_assoc]
    obtain ⟨p, hp, hp2⟩ := items_many q a b s pd k hk more q.length (x + w.length, x + w.length) rest (by
      have e1 := congrArg List.length h1'
      have e2 := hlen more hm
      simp only [List.length_drop, List.length_append] at e1
      have e3 : 0 < w.length := List.length_pos_iff.2 hw.1
      omega) hm (by
      rw [← List.drop_drop, h1', List.drop_left])
    refine ⟨w.length, ⟨w, _, h1', rfl, hw.1, hw.2⟩, p, hp, r.1, ?_, Prod.ext rfl h3.symm⟩
    rw [hp2]
    simp only [Nat.add_assoc]
    simpa [joined, Nat.add_assoc] using h4

private theorem join_shallow (d : Bool) {a b pd : Atom} {k : Quant} {s : List Atom} (ha : a.ok = true) (hl : a.listing = true) (hw : Padding pd k) (hd : ∀ c, a.set c = true → pd.set c = false) (hs : Seps (b :: s)) : shallow (joinSq d a b s pd k) = true := by
  have hst := listing_steady hl
  have hstb := listing_steady (hs b (by simp)).2
  have i := fine ha hl hw hd s (fun c hc => hs c (List.mem_cons_of_mem _ hc))
  have h1 : flat (.cons b .once (tailSq a pd k s)) = true := by
    simp [flat, hstb, Quant.sane, Quant.ok, Quant.lo, Quant.hi, i.flat]
  have h2 : repShallow false (.last false (.cons b .once (tailSq a pd k s))) (.star .greedy) = true := by
    simp [repShallow, flats, h1, Alts.list, Quant.mode, Quant.lo]
    simp [Sq.eats, Quant.lo]
  have hg := not_group (a := a) (by simp [hst])
  rw [joinSq]
  cases hq : a <;> first | exact absurd hq (hg _ _) | (rw [hq] at hst h2; simp [shallow, hst, h2, Quant.sane, Quant.ok, Quant.hi])

private theorem sep_len : ∀ (T : List (Int → Bool)) (u : List Int), SepText T u → u.length = T.length
  | [], u, h => by rw [SepText] at h; subst h; rfl
  | S :: T, _, ⟨d, v, rfl, _, h2⟩ => by simp [sep_len T v h2]

private theorem after_item {S B : Int → Bool} {T : List (Int → Bool)} {W : Int → Bool} {lo : Nat} {hi : Option Nat} (h1 : ∀ c, S c = true → B c = false)
    {more : List (List Int × List Int)} {rest : List Int} (hm : Items S (PadText (B :: T) W lo hi) more) (hr : ∀ c, rest.head? = some c → S c = false ∧ B c = false) :
    ∀ c, (joined more ++ rest).head? = some c → S c = false := by
  intro c hc
  cases more with
  | nil => exact (hr c (by simpa [joined] using hc)).1
  | cons p more =>
    obtain ⟨⟨v, y, g1, ⟨d, v', rfl, g2, _⟩, _⟩, _⟩ := hm p (by simp)
    have : d = c := by simpa [joined, g1] using hc
    subst this
    cases hS : S d with
    | false => rfl
    | true => rw [h1 d hS] at g2; cases g2

private theorem same_items {S B : Int → Bool} {T : List (Int → Bool)} {W : Int → Bool} {lo : Nat} {hi : Option Nat} (h1 : ∀ c, S c = true → B c = false)
    (h2 : ∀ c, S c = true → W c = false) {rest rest' : List Int} (hr : ∀ c, rest.head? = some c → S c = false ∧ B c = false)
    (hr' : ∀ c, rest'.head? = some c → S c = false ∧ B c = false) : ∀ (more more' : List (List Int × List Int)), Items S (PadText (B :: T) W lo hi) more →
      Items S (PadText (B :: T) W lo hi) more' → joined more ++ rest = joined more' ++ rest' → joined more = joined more' ∧ rest = rest'
  | [], [], _, _, h => by simpa [joined] using h
  | [], p :: more, _, hm, h => by
    exfalso
    obtain ⟨⟨v, y, g1, ⟨d, v', rfl, g2, _⟩, _⟩, _⟩ := hm p (by simp)
    have := (hr d (by simp only [joined, List.map_nil, List.flatten_nil, List.nil_append] at h; rw [h]; simp [g1])).2
    rw [g2] at this; cases this
  | p :: more, [], hm, _, h => by
    exfalso
    obtain ⟨⟨v, y, g1, ⟨d, v', rfl, g2, _⟩, _⟩, _⟩ := hm p (by simp)
    have := (hr' d (by simp only [joined, List.map_nil, List.flatten_nil, List.nil_append] at h; rw [← h]; simp [g1])).2
    rw [g2] at this; cases this
  | p :: more, p' :: more', hm, hm', h => by
    have e : ∀ (p : List Int × List Int) more, joined (p :: more) = p.1 ++ (p.2 ++ joined more) := fun p more => by simp [joined]
    obtain ⟨⟨v, y, g1, g2, _, _, g3⟩, g4⟩ := hm p (by simp)
    obtain ⟨⟨v', y', g1', g2', _, _, g3'⟩, g4'⟩ := hm' p' (by simp)
    rw [e, e, g1, g1'] at h
    simp only [List.append_assoc] at h
    obtain ⟨rfl, i1⟩ := List.append_inj h (by rw [sep_len _ _ g2, sep_len _ _ g2'])
    have front : ∀ (w l : List Int), ItemText S w → ∀ c, (w ++ l).head? = some c → W c = false := by
      intro w l hw c hc
      match w, hw with
      | d :: w, hw =>
        have : d = c := by simpa using hc
        subst this
        exact h2 d (hw.2 d (by simp))
      | [], hw => exact absurd rfl hw.1
    obtain ⟨rfl, i2⟩ := same_run i1 g3 g3' (front _ _ g4) (front _ _ g4')
    have t1 : Items S (PadText (B :: T) W lo hi) more := fun v hv => hm v (List.mem_cons_of_mem _ hv)
    have t2 : Items S (PadText (B :: T) W lo hi) more' := fun v hv => hm' v (List.mem_cons_of_mem _ hv)
    obtain ⟨i3, i4⟩ := same_run i2 g4.2 g4'.2 (after_item h1 t1 hr) (after_item h1 t2 hr')
    obtain ⟨i5, i6⟩ := same_items h1 h2 hr hr' more more' t1 t2 i4
    refine ⟨?_, i6⟩
    rw [e, e, g1, g1', i3, i5]

/-- There is only one list in front of the end of a line. -/
private theorem one_list {S B : Int → Bool} {T : List (Int → Bool)} {W : Int → Bool} {lo : Nat} {hi : Option Nat} (h1 : ∀ c, S c = true → B c = false)
    (h2 : ∀ c, S c = true → W c = false) (h3 : S 10 = false) (h4 : B 10 = false) {t t' rest rest' : List Int} (h : t ++ rest = t' ++ rest') (ht : PaddedText S (B :: T) W lo hi t)
    (ht' : PaddedText S (B :: T) W lo hi t') (hr : rest = [] ∨ rest.head? = some 10) (hr' : rest' = [] ∨ rest'.head? = some 10) : t = t' ∧ rest = rest' := by
  have hh : ∀ r : List Int, (r = [] ∨ r.head? = some 10) → ∀ c, r.head? = some c → S c = false ∧ B c = false := by
    rintro r (rfl | hr) c hc
    · simp at hc
    · rw [hr] at hc; cases hc; exact ⟨h3, h4⟩
  obtain ⟨w, more, rfl, hw, hm⟩ := ht
  obtain ⟨w', more', rfl, hw', hm'⟩ := ht'
  simp only [List.append_assoc] at h
  obtain ⟨rfl, i⟩ := same_run h hw.2 hw'.2 (after_item h1 hm (hh _ hr)) (after_item h1 hm' (hh _ hr'))
  obtain ⟨i1, i2⟩ := same_items h1 h2 (hh _ hr) (hh _ hr') more more' hm hm' i
  exact ⟨by simp only [joined] at i1; rw [i1], i2⟩

/-- **C78.** Checking a list with padding behind the separators, such as any number of blanks: for every `a`, every sequence `b s`, that are characters, escapes (but `\s`) or
classes without `\s` that are not negated, and every padding `w*`, `w+` or `w?`, where `w` is such a thing or `\s`, if no character of `a` is one of `b` or `w`, and `a` and
`b` do not take a newline: `^a+(?:b s w* a+)*$` accepts a query if and only if the query, up to its end or a newline, is a list: items of characters of `a`, and between any
two of them one separator with padding behind it; the match is the list (and the newline, if there is one). -/
theorem C78_check (a b : Atom) (s : List Atom) (pd : Atom) (k : Quant) (ha : a.ok = true) (hl : a.listing = true) (hs : Seps (b :: s)) (hw : Padding pd k)
    (h1 : ∀ c, a.set c = true → b.set c = false ∧ pd.set c = false) (h2 : a.set 10 = false) (h3 : b.set 10 = false) (hsl : s.length < 2147483640)
    (hc : ∀ c ∈ [94] ++ padSpell a (b :: s) pd k ++ [36], c ∈ allChars) :
    ∃ t, compile ([94] ++ padSpell a (b :: s) pd k ++ [36]) = some t ∧
      ∀ (cx : Ctx), (∀ c ∈ cx.query, c ∈ allChars) → cx.query.length < 4294967295 → cx.post.head? = some 0 →
        ∀ (fuel : Nat), cx.query.length ≤ fuel → ∃ st, construct cx t fuel = .ok st ∧
          (st.accepted = true ↔ ∃ l rest, cx.query = l ++ rest ∧ PaddedText a.set ((b :: s).map Atom.set) pd.set k.lo k.hi l ∧ (rest = [] ∨ rest.head? = some 10)) ∧
          ∀ l rest, cx.query = l ++ rest → PaddedText a.set ((b :: s).map Atom.set) pd.set k.lo k.hi l → (rest = [] ∨ rest.head? = some 10) →
            getGroup st 0 = some (some (0, if rest = [] then (l.length : Int) else l.length + 1)) := by
  have hst := listing_steady hl
  have hk := greedy hw
  have hd : ∀ c, a.set c = true → pd.set c = false := fun c hc => (h1 c hc).2
  have h1 : ∀ c, a.set c = true → b.set c = false := fun c hc => (h1 c hc).1
  have hsp : (Alts.last true (joinSq true a b s pd k)).spell = [94] ++ padSpell a (b :: s) pd k ++ [36] := by simp [Alts.spell, join_spell]
  obtain ⟨t, ht, h⟩ := C55_nested_partial (joinSq true a b s pd k) (join_committed ha hl hw hd hs h1 h2 h3 hsl) (by rw [hsp]; exact hc)
  rw [hsp] at ht
  refine ⟨t, ht, fun cx hq hlen hn fuel hfuel => ?_⟩
  obtain ⟨st, e1, e2⟩ := h cx hq hlen (fun _ => hn) fuel hfuel
  refine ⟨st, e1, ?_⟩
  rw [ways_caps _ (join_shallow true ha hl hw hd hs), List.head?_map] at e2
  have hmem : ∀ r, r ∈ caps cx.query (joinSq true a b s pd k) 0 ↔ ∃ l rest, cx.query = l ++ rest ∧ PaddedText a.set ((b :: s).map Atom.set) pd.set k.lo k.hi l ∧ (rest = [] ∨ rest.head? = some 10) ∧
      r = (if rest = [] then l.length else l.length + 1, []) := by
    intro r
    rw [mem_join true hst b s pd k hk]
    simp only [List.drop_zero, Nat.zero_add]
    have key : ∀ l rest : List Int, cx.query = l ++ rest → ∀ e, e ∈ (Sq.nil true).picks cx.query l.length ↔
        (rest = [] ∨ rest.head? = some 10) ∧ e = if rest = [] then l.length else l.length + 1 := by
      intro l rest hq e
      simp only [Sq.picks, hq]
      cases rest with
      | nil => simp
      | cons c rest =>
        by_cases hc : c = 10
        · subst hc; simp
        · simp [hc]
    constructor
    · rintro ⟨l, rest, g1, g2, g3, g4⟩
      obtain ⟨g5, g6⟩ := (key l rest g1 r.1).1 g4
      exact ⟨l, rest, g1, g2, g5, Prod.ext g6 g3⟩
    · rintro ⟨l, rest, g1, g2, g3, rfl⟩
      exact ⟨l, rest, g1, g2, rfl, (key l rest g1 _).2 ⟨g3, rfl⟩⟩
  have some_of : ∀ l rest, cx.query = l ++ rest → PaddedText a.set ((b :: s).map Atom.set) pd.set k.lo k.hi l → (rest = [] ∨ rest.head? = some 10) →
      (caps cx.query (joinSq true a b s pd k) 0).head? = some (if rest = [] then l.length else l.length + 1, []) := by
    intro l rest g1 g2 g3
    have hin := (hmem _).2 ⟨l, rest, g1, g2, g3, rfl⟩
    cases heq : caps cx.query (joinSq true a b s pd k) 0 with
    | nil => rw [heq] at hin; simp at hin
    | cons r rs =>
      obtain ⟨l', rest', g1', g2', g3', rfl⟩ := (hmem r).1 (by rw [heq]; simp)
      obtain ⟨rfl, rfl⟩ := one_list h1 hd h2 h3 (g1.symm.trans g1') g2 g2' g3 g3'
      rfl
  constructor
  · constructor
    · intro hacc
      cases hh : (caps cx.query (joinSq true a b s pd k) 0).head? with
      | none => rw [hh] at e2; simp only [Option.map_none] at e2; rw [hacc] at e2; cases e2
      | some r =>
        obtain ⟨l, rest, g1, g2, g3, _⟩ := (hmem r).1 (List.mem_of_mem_head? hh)
        exact ⟨l, rest, g1, g2, g3⟩
    · rintro ⟨l, rest, g1, g2, g3⟩
      rw [some_of l rest g1 g2 g3] at e2
      exact e2.1
  · intro l rest g1 g2 g3
    rw [some_of l rest g1 g2 g3] at e2
    rw [e2.2.1]
    simp only
    split <;> simp

/-! ## searching -/

/-- Inside a run of characters of the class there is no separator. -/
private theorem inside_run {q : List Int} {a b pd : Atom} {k : Quant} (hk : k.mode ≠ .possessive) {s : List Atom} (h1 : ∀ c, a.set c = true → b.set c = false) {x n : Nat} (h : n < runLen a.set (q.drop x)) :
    (Alts.last false (.cons b .once (tailSq a pd k s))).picks q (x + n) = [] := by
  rw [List.eq_nil_iff_forall_not_mem]
  intro e he
  obtain ⟨_, w, r, g1, ⟨_, y, rfl, ⟨c, v, rfl, g2, _⟩, _⟩, _⟩ := (item_picks q a b s pd k hk _ e).1 he
  have hsep : q[x + n]? = some c := by
    rw [← List.head?_drop, g1]; rfl
  have := h1 c (run_all (S := a.set) (q := q) (s := x) (Nat.le_refl _) (Nat.le_add_right x n) (by omega) hsep)
  rw [g2] at this; cases this

private theorem head_flatMap {α β : Type} {F : α → List β} {e : β} : ∀ {l : List α}, (l.flatMap F).head? = some e → ∃ x ∈ l, (F x).head? = some e
  | [], h => by simp at h
  | x :: l, h => by
    simp only [List.flatMap_cons, List.head?_append] at h
    cases hx : (F x).head? with
    | some y =>
      rw [hx] at h
      simp only [Option.some_or, Option.some.injEq] at h
      exact ⟨x, by simp, by rw [hx, h]⟩
    | none =>
      rw [hx] at h
      obtain ⟨z, h1, h2⟩ := head_flatMap (l := l) (by simpa using h)
      exact ⟨z, by simp [h1], h2⟩

/-- Where the item begins: behind the separator and all the padding there is. -/
private theorem tail_shape (q : List Int) {a pd : Atom} {k : Quant} (hk : k.mode ≠ .possessive) (hd : ∀ c, a.set c = true → pd.set c = false) : ∀ (s : List Atom) (j : Nat), ∃ i, j ≤ i ∧
    (∀ e ∈ (tailSq a pd k s).picks q j, ∃ n ∈ (Quant.plus .greedy).counts (runLen a.set (q.drop i)), e = i + n) ∧
    ∀ e, ((tailSq a pd k s).picks q j).head? = some e → ∃ n, ((Quant.plus .greedy).counts (runLen a.set (q.drop i))).head? = some n ∧ e = i + n
  | [], j => by
    have inner : ∀ i, (Sq.cons a (.plus .greedy) (.nil false)).picks q i = ((Quant.plus .greedy).counts (runLen a.set (q.drop i))).map (i + ·) := fun i => by
      simp [Sq.picks, List.map_eq_flatMap]
    have only : ∀ n ∈ k.counts (runLen pd.set (q.drop j)), ∀ e ∈ (Sq.cons a (.plus .greedy) (.nil false)).picks q (j + n), n = runLen pd.set (q.drop j) := by
      intro n hn e he
      have hle := ((mem_greedy _ _ _ hk).1 hn).2
      rcases Nat.lt_or_ge n (runLen pd.set (q.drop j)) with hlt | hge
      · exfalso
        rw [inner] at he
        obtain ⟨m, hm, _⟩ := List.mem_map.1 he
        obtain ⟨w, r, g1, _, g2, g3⟩ := plus_texts.1 hm
        match w, g2 with
        | c :: w, _ =>
          have hc : q[j + n]? = some c := by rw [← List.head?_drop, g1]; rfl
          have := run_all (S := pd.set) (q := q) (s := j) (Nat.le_refl _) (Nat.le_add_right j n) (by omega) hc
          rw [hd c (g3 c (by simp))] at this; cases this
      · omega
    have e0 : (tailSq a pd k []).picks q j = (k.counts (runLen pd.set (q.drop j))).flatMap (fun n => (Sq.cons a (.plus .greedy) (.nil false)).picks q (j + n)) := by
      rw [tailSq, Sq.picks]
    refine ⟨j + runLen pd.set (q.drop j), Nat.le_add_right _ _, fun e he => ?_, fun e he => ?_⟩
    · rw [e0] at he
      obtain ⟨n, hn, hin⟩ := List.mem_flatMap.1 he
      have := only n hn e hin
      rw [inner, this] at hin
      obtain ⟨m, hm, rfl⟩ := List.mem_map.1 hin
      exact ⟨m, hm, rfl⟩
    · rw [e0] at he
      obtain ⟨n, hn, hin⟩ := head_flatMap he
      have := only n hn e (List.mem_of_mem_head? hin)
      rw [inner, this, List.head?_map] at hin
      cases hc : ((Quant.plus .greedy).counts (runLen a.set (q.drop (j + runLen pd.set (q.drop j))))).head? with
      | none => rw [hc] at hin; simp at hin
      | some m => rw [hc] at hin; exact ⟨m, rfl, by simpa using hin.symm⟩
  | b :: s, j => by
    simp only [tailSq, Sq.picks, counts_once]
    split
    · obtain ⟨i, h1, h2, h3⟩ := tail_shape q hk hd s (j + 1)
      exact ⟨i, by omega, fun e he => h2 e (by simpa using he), fun e he => h3 e (by simpa using he)⟩
    · exact ⟨j, Nat.le_refl _, by simp, by simp⟩

private theorem item_max {q : List Int} {a b pd : Atom} {k : Quant} (hk : k.mode ≠ .possessive) (hd : ∀ c, a.set c = true → pd.set c = false) {s : List Atom}
    (h1 : ∀ c, a.set c = true → b.set c = false) (j e0 : Nat) (h : ((Alts.last false (.cons b .once (tailSq a pd k s))).picks q j).head? = some e0) :
    j < e0 ∧ ∀ e ∈ (Alts.last false (.cons b .once (tailSq a pd k s))).picks q j, e = e0 ∨ (e < e0 ∧ (Alts.last false (.cons b .once (tailSq a pd k s))).picks q e = []) := by
  have hp : (Alts.last false (.cons b .once (tailSq a pd k s))).picks q j = (tailSq a pd k (b :: s)).picks q j := by
    simp [Alts.picks, hatPicks, tailSq]
  rw [hp] at h ⊢
  obtain ⟨i, hi, g1, g2⟩ := tail_shape q hk hd (b :: s) j
  obtain ⟨n0, hc, rfl⟩ := g2 e0 h
  obtain ⟨p1, p2, p3⟩ := plus_first hc
  refine ⟨by omega, fun e he => ?_⟩
  obtain ⟨n, hn, rfl⟩ := g1 e he
  have := p3 n hn
  by_cases hnn : n = n0
  · exact Or.inl (by omega)
  · exact Or.inr ⟨by omega, inside_run hk h1 (by omega)⟩

/-- The first way is the longest. -/
private theorem join_first {q : List Int} {a : Atom} (hst : a.steady = true) {b pd : Atom} {k : Quant} (hk : k.mode ≠ .possessive) (hd : ∀ c, a.set c = true → pd.set c = false) {s : List Atom} (h1 : ∀ c, a.set c = true → b.set c = false) {x : Nat} {r0 : Nat × List (Nat × Nat)}
    (h : (caps q (joinSq false a b s pd k) x).head? = some r0) : ∀ r ∈ caps q (joinSq false a b s pd k) x, r.1 ≤ r0.1 := by
  have hp : ∀ i, (Sq.nil false).picks q i = [i] := fun i => rfl
  rw [join_caps false hst] at h ⊢
  simp only [hp, List.map_cons, List.map_nil, ← List.map_eq_flatMap] at h ⊢
  cases hc : ((Quant.plus .greedy).counts (runLen a.set (q.drop x))).head? with
  | none => rw [List.head?_eq_none_iff] at hc; rw [hc] at h; simp at h
  | some n0 =>
    obtain ⟨p1, p2, p3⟩ := plus_first hc
    rw [flatMap_head (F := fun n => (manyS (fun j => (Alts.last false (.cons b .once (tailSq a pd k s))).picks q j) q.length (x + n, x + n)).map (fun p => (p.2, ([] : List (Nat × Nat))))) hc
      (by simp [manyS_ne]), List.head?_map] at h
    cases hh : (manyS (fun j => (Alts.last false (.cons b .once (tailSq a pd k s))).picks q j) q.length (x + n0, x + n0)).head? with
    | none => rw [hh] at h; simp at h
    | some s0 =>
      rw [hh] at h
      simp only [Option.map_some, Option.some.injEq] at h
      subst h
      obtain ⟨i1, i2⟩ := many_first (fun j e0 => item_max hk hd h1 j e0) _ _ _ hh
      intro r hr
      simp only [List.mem_flatMap, List.mem_map] at hr
      obtain ⟨n, hn, p, hp, rfl⟩ := hr
      have hle := p3 n hn
      by_cases hnn : n = n0
      · subst hnn; exact i2 p hp
      · have hb : (Alts.last false (.cons b .once (tailSq a pd k s))).picks q (x + n) = [] := inside_run hk h1 (by omega)
        have : p = (x + n, x + n) := by
          revert hp
          generalize q.length = f
          cases f with
          | zero => intro hp; simpa [manyS] using hp
          | succ f => intro hp; simpa [manyS, hb] using hp
        subst this
        simp only at i1 ⊢; omega

/-- **C78.** Searching for such lists: matching, `next()` and a range-for with `a+(?:b s w* a+)*` report, from left to right and without overlap, the lists in the query: from
where a match begins, the longest list that begins there; in the text skipped, none begins. -/
theorem C78_search (a b : Atom) (s : List Atom) (pd : Atom) (k : Quant) (ha : a.ok = true) (hl : a.listing = true) (hs : Seps (b :: s)) (hw : Padding pd k)
    (h1 : ∀ c, a.set c = true → b.set c = false ∧ pd.set c = false) (hsl : s.length < 2147483640)
    (hc : ∀ c ∈ padSpell a (b :: s) pd k, c ∈ allChars) :
    ∃ g : List Int → Nat → Option (Nat × Caps), FindsGroups (padSpell a (b :: s) pd k) 0 false g ∧
      ∀ q x, (g q x = none → ∀ e, x ≤ e → e ≤ q.length → ¬ PaddedText a.set ((b :: s).map Atom.set) pd.set k.lo k.hi (slice q x e)) ∧
        ∀ w, g q x = some w → x ≤ w.1 ∧ w.1 ≤ q.length ∧ PaddedText a.set ((b :: s).map Atom.set) pd.set k.lo k.hi (slice q x w.1) ∧ ∀ e, x ≤ e → e ≤ q.length → PaddedText a.set ((b :: s).map Atom.set) pd.set k.lo k.hi (slice q x e) → e ≤ w.1 := by
  have hst := listing_steady hl
  have hk := greedy hw
  have hd : ∀ c, a.set c = true → pd.set c = false := fun c hc => (h1 c hc).2
  have h1 : ∀ c, a.set c = true → b.set c = false := fun c hc => (h1 c hc).1
  have hr := join_regular ha hl hw hd hs h1 hsl
  have hsp : (Alts.last false (joinSq false a b s pd k)).spell = padSpell a (b :: s) pd k := by simp [Alts.spell, join_spell]
  have ht : Alts.takes (.last false (joinSq false a b s pd k)) = true := by
    cases a <;> first | (simp [Atom.steady] at hst; done) | simp [joinSq, Alts.takes, Alts.list, Sq.takes, Quant.lo]
  have hf := C50_groups_partial (.last false (joinSq false a b s pd k)) hr (by rw [hsp]; exact hc) ht
  have hcount : (Alts.last false (joinSq false a b s pd k)).count = 0 := by
    have e := easy ha hst
    have hb := hs b (by simp)
    simp [joinSq, Alts.count, Sq.count, Atom.count, e.count, (easy hb.1 (listing_steady hb.2)).count, (fine ha hl hw hd s (fun c hc => hs c (List.mem_cons_of_mem _ hc))).count]
  have hdol : (Alts.last false (joinSq false a b s pd k)).dollar = false := rfl
  rw [hsp, hcount, hdol] at hf
  refine ⟨_, hf, fun q x => ?_⟩
  have hmem : ∀ r, r ∈ caps q (joinSq false a b s pd k) x ↔ ∃ t rest, q.drop x = t ++ rest ∧ PaddedText a.set ((b :: s).map Atom.set) pd.set k.lo k.hi t ∧ r = (x + t.length, []) := by
    intro r
    rw [mem_join false hst b s pd k hk]
    simp only [Sq.picks, List.mem_singleton]
    constructor
    · rintro ⟨t, rest, g1, g2, g3, g4⟩; exact ⟨t, rest, g1, g2, Prod.ext g4 g3⟩
    · rintro ⟨t, rest, g1, g2, rfl⟩; exact ⟨t, rest, g1, g2, rfl, rfl⟩
  have hin : ∀ e, x ≤ e → e ≤ q.length → PaddedText a.set ((b :: s).map Atom.set) pd.set k.lo k.hi (slice q x e) → (e, []) ∈ caps q (joinSq false a b s pd k) x := by
    intro e g1 g2 g3
    refine (hmem _).2 ⟨slice q x e, (q.drop x).drop (e - x), (List.take_append_drop _ _).symm, g3, ?_⟩
    simp only [slice, List.length_take, List.length_drop]
    rw [show x + min (e - x) (q.length - x) = e by omega]
  have hbest : bestWay (.last false (joinSq false a b s pd k)) q x = ((caps q (joinSq false a b s pd k) x).head?).map (fun r => (r.1, fill noCaps 0 r.2)) := by
    rw [bestWay]
    simp only [Alts.ways, Bool.false_and, Bool.false_eq_true, if_false]
    rw [ways_caps _ (join_shallow false ha hl hw hd hs), List.head?_map]
  rw [hbest]
  constructor
  · intro hnone e g1 g2 g3
    simp only [Option.map_eq_none_iff, List.head?_eq_none_iff] at hnone
    have := hin e g1 g2 g3
    rw [hnone] at this; simp at this
  · intro w hw
    cases hh : (caps q (joinSq false a b s pd k) x).head? with
    | none => rw [hh] at hw; simp at hw
    | some r =>
      rw [hh] at hw
      simp only [Option.map_some, Option.some.injEq] at hw
      subst hw
      have hfirst := join_first hst hk hd h1 hh
      obtain ⟨t, rest, g1, g2, rfl⟩ := (hmem r).1 (List.mem_of_mem_head? hh)
      have hsli : slice q x (x + t.length) = t := by simp [slice, g1]
      have hlt : 0 < t.length := by
        obtain ⟨w, more, rfl, hw, _⟩ := g2
        have := List.length_pos_iff.2 hw.1
        simp only [List.length_append]; omega
      have hle := congrArg List.length g1
      simp only [List.length_drop, List.length_append] at hle
      refine ⟨by simp, by simp only; omega, by simp only [hsli]; exact g2, fun e g3 g4 g5 => hfirst _ (hin e g3 g4 g5)⟩


/-- **C78 is false of padding that an item may begin with**: `a, ` is the items `a` and ` ` with a comma between them, and `^[a-z ]+(?:, *[a-z ]+)*$` rejects it. -/
theorem C78_refuted_ambiguous : PaddedText (Atom.cls false [.rng 97 122, .chr 32] false).set ([Atom.chr 44].map Atom.set) (Atom.chr 32).set 0 none (str "a, ") ∧
    m "^[a-z ]+(?:, *[a-z ]+)*$" "a, " = none := by
  refine ⟨⟨str "a", [(str ",", str " ")], by decide, by unfold ItemText; decide, ?_⟩, by decide +kernel⟩
  intro p hp
  simp only [List.mem_singleton] at hp
  subst hp
  exact ⟨⟨[44], [], by decide, ⟨44, [], rfl, by decide, rfl⟩, by decide, by simp, by decide⟩, by unfold ItemText; decide⟩

end ERegex.Props

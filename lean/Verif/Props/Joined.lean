import Verif.Props.Lists
import Verif.Spec.Joined
/-!
# C77 : lists of items with a separator of several characters
-/
set_option autoImplicit false
namespace ERegex.Props
open ERegex ERegex.Spec
open ERegex.Conformance (lit m)

/-- `s a+`: the atoms of `s`, one after the other, and then the item. -/
private def tailSq (a : Atom) : List Atom → Sq
  | [] => .cons a (.plus .greedy) (.nil false)
  | b :: s => .cons b .once (tailSq a s)
/-- `a+(?:b s a+)*`, `$` behind it if `d` -/
private def joinSq (d : Bool) (a b : Atom) (s : List Atom) : Sq :=
  .cons a (.plus .greedy) (.cons (.group false (.last false (.cons b .once (tailSq a s)))) (.star .greedy) (.nil d))

/-- `a+(?:s a+)*` -/
def joinSpell (a : Atom) (s : List Atom) : List Int := a.spell ++ [43, 40, 63, 58] ++ (s.map Atom.spell).flatten ++ a.spell ++ [43, 41, 42]

private theorem tail_spell (a : Atom) : ∀ s, (tailSq a s).spell = (s.map Atom.spell).flatten ++ a.spell ++ [43]
  | [] => by simp [tailSq, Sq.spell, Quant.spell, QMode.spell]
  | b :: s => by simp [tailSq, Sq.spell, Quant.spell, tail_spell a s]

private theorem join_spell (d : Bool) (a b : Atom) (s : List Atom) : (joinSq d a b s).spell = joinSpell a (b :: s) ++ if d then [36] else [] := by
  cases d <;> simp [joinSq, joinSpell, Alts.spell, Sq.spell, Atom.spell, Quant.spell, QMode.spell, tail_spell]

/-- The atoms of a separator: characters, escapes but `\s`, classes without `\s` that are not negated. -/
def Seps (s : List Atom) : Prop := ∀ b ∈ s, b.ok = true ∧ b.listing = true

/-! Cases that meet the conditions: words separated by a comma or a semicolon and a blank, numbers separated by `..`. -/
example : joinSpell (.esc 119) [.cls false [.chr 44, .chr 59] false, .chr 32] = str "\\w+(?:[,;] \\w+)*" ∧ (Atom.esc 119).ok = true ∧ (Atom.esc 119).listing = true ∧
    (Atom.esc 119).set 10 = false ∧ ∀ c ∈ [94] ++ joinSpell (.esc 119) [.cls false [.chr 44, .chr 59] false, .chr 32] ++ [36], c ∈ allChars := by decide +kernel
example : Seps [.cls false [.chr 44, .chr 59] false, .chr 32] := by unfold Seps; decide
example : ∀ b ∈ [Atom.cls false [.chr 44, .chr 59] false, .chr 32], b.set 10 = false := by decide
example : ∀ c, (Atom.esc 119).set c = true → (Atom.cls false [.chr 44, .chr 59] false).set c = false := by
  intro c h
  have h1 : c ≠ 44 := by rintro rfl; revert h; decide
  have h2 : c ≠ 59 := by rintro rfl; revert h; decide
  simp [Atom.set, listed, Item.test, h1, h2]
example : joinSpell (.esc 100) [.esc 46, .esc 46] = str "\\d+(?:\\.\\.\\d+)*" := by decide
example : JoinedText (Atom.esc 119).set ([Atom.cls false [.chr 44, .chr 59] false, .chr 32].map Atom.set) (str "a, bc; d") :=
  ⟨str "a", [(str ", ", str "bc"), (str "; ", str "d")], by decide, by unfold ItemText; decide, by
    intro p hp
    simp only [List.mem_cons, List.not_mem_nil, or_false] at hp
    rcases hp with rfl | rfl
    · exact ⟨⟨44, [32], by decide, by decide, 32, [], by decide, by decide, rfl⟩, by unfold ItemText; decide⟩
    · exact ⟨⟨59, [32], by decide, by decide, 32, [], by decide, by decide, rfl⟩, by unfold ItemText; decide⟩⟩
example : m "^\\w+(?:[,;] \\w+)*$" "a, bc; d" = some [some "a, bc; d"] ∧ m "^\\w+(?:[,;] \\w+)*$" "a,bc; d" = none ∧ m "^\\w+(?:[,;] \\w+)*$" "a, bc, " = none ∧
    m "\\w+(?:[,;] \\w+)*" "..a, b; c,d" = some [some "a, b; c"] ∧ m "\\w+(?:[,;] \\w+)*" "..a, b; c,d" 1 = some [some "d"] ∧
    m "\\d+(?:\\.\\.\\d+)*" "1..22.3" = some [some "1..22"] ∧ m "\\d+(?:\\.\\.\\d+)*" "1..22.3" 1 = some [some "3"] := by decide +kernel

/-! ## the conditions of the library -/

private structure Fine (a : Atom) (s : List Atom) : Prop where
  ok : (tailSq a s).ok = true
  plainly : (tailSq a s).plainly = true
  feeds : (tailSq a s).feeds = true
  hatless : (tailSq a s).hatless = true
  mute : (tailSq a s).mute = true
  count : (tailSq a s).count = 0
  lined : ∀ g n, (tailSq a s).lined g n = true
  hard : (tailSq a s).hard (fun _ => false) = true
  slips : ∀ S, (tailSq a s).slips S = true
  empties : (tailSq a s).empties = false
  bulk : (tailSq a s).bulk = 2 * s.length + 2
  regular : (tailSq a s).regular = true
  settled : settled (.nil false) (tailSq a s) = true
  dollar : (tailSq a s).dollar = false
  least : (tailSq a s).least = s.length + 1
  flat : flat (tailSq a s) = true
  within : (tailSq a s).within (fun _ => true) = true

private theorem fine {a : Atom} (ha : a.ok = true) (hst : a.steady = true) : ∀ (s : List Atom), Seps s → Fine a s
  | [], _ => by
    have e := easy ha hst
    have none : ∀ f : Int → Bool, meets f (fun _ => false) = false := fun f => not_meets (fun x _ h => by cases h)
    have none' : ∀ f : Int → Bool, meets f (Sq.nil false).shown = false := fun f => not_meets (fun x _ h => by simp [Sq.shown] at h)
    have none2 : ∀ f : Int → Bool, meets f (Sq.nil false).firsts = false := fun f => not_meets (fun x _ h => by simp [Sq.firsts] at h)
    constructor
    · simp [tailSq, Sq.ok, ha, Quant.ok]
    · simp [tailSq, Sq.plainly, e.plainly, e.feeds, e.mute, Quant.sane, Quant.ok, Quant.hi]
    · simp [tailSq, Sq.feeds, e.feeds, Quant.lo]
    · simp [tailSq, Sq.hatless, e.hatless]
    · simp [tailSq, Sq.mute, e.count]
    · simp [tailSq, Sq.count, e.count]
    · simp [tailSq, Sq.lined, e.lined]
    · simp [tailSq, Sq.hard, e.hard, Quant.mode, Sq.firsts, none, none2]
    · simp [tailSq, Sq.slips, e.slips, Quant.lo, Sq.empties]
    · simp [tailSq, Sq.empties, e.empties, Quant.lo]
    · simp [tailSq, Sq.bulk, e.bulk, Quant.lo]
    · simp [tailSq, Sq.regular, ha, hst, Quant.sane, Quant.ok, Quant.lo, Quant.hi, pieceOk, Quant.mode, Quant.fixed, Sq.nullable, keeps, none']
    · simp [tailSq, settled, Quant.mode, Quant.fixed, Sq.nullable, Sq.voids]
    · simp [tailSq, Sq.dollar]
    · simp [tailSq, Sq.least, Quant.lo]
    · simp [tailSq, flat, hst, Quant.sane, Quant.ok, Quant.lo, Quant.hi]
    · simp [tailSq, Sq.within, e.within]
  | b :: s, h => by
    have hb := h b (by simp)
    have hstb := listing_steady hb.2
    have e := easy hb.1 hstb
    have i := fine ha hst s (fun c hc => h c (List.mem_cons_of_mem _ hc))
    constructor
    · simp [tailSq, Sq.ok, hb.1, Quant.ok, i.ok]
    · simp [tailSq, Sq.plainly, e.plainly, e.feeds, e.mute, Quant.sane, Quant.ok, Quant.hi, Quant.lo, Quant.isOnce, i.plainly]
    · simp [tailSq, Sq.feeds, i.feeds]
    · simp [tailSq, Sq.hatless, e.hatless, i.hatless]
    · simp [tailSq, Sq.mute, e.count, i.mute]
    · simp [tailSq, Sq.count, e.count, i.count]
    · simp [tailSq, Sq.lined, e.lined, i.lined]
    · simp [tailSq, Sq.hard, e.hard, e.isCap, i.hard]
    · simp [tailSq, Sq.slips, e.slips, Quant.lo, e.isCap, Quant.isOnce]
    · simp [tailSq, Sq.empties, e.empties, Quant.lo]
    · simp [tailSq, Sq.bulk, e.bulk, Quant.lo, i.bulk]; omega
    · simp [tailSq, Sq.regular, hb.1, hstb, Quant.sane, Quant.ok, Quant.lo, Quant.hi, pieceOk, Quant.mode, Quant.fixed, i.regular]
    · simp [tailSq, settled, Quant.mode, Quant.fixed, i.settled]
    · simp [tailSq, Sq.dollar, i.dollar]
    · simp [tailSq, Sq.least, Quant.lo, i.least]; omega
    · simp [tailSq, flat, hstb, Quant.sane, Quant.ok, Quant.lo, Quant.hi, i.flat]
    · simp [tailSq, Sq.within, e.within, i.within]

private theorem tail_commits {a : Atom} (ha : a.ok = true) (hst : a.steady = true) {L : Int → Bool} (h : ∀ c, a.set c = true → L c = false) (tot : Bool) :
    ∀ (s : List Atom), Seps s → (tailSq a s).commits tot L = true
  | [], _ => by
    have e := easy ha hst
    have hm : meets a.set ((Sq.nil false).upcoming L) = false := not_meets (fun x h1 h2 => by
      simp [Sq.upcoming, Sq.heads, Sq.empties] at h2
      rw [h x h1] at h2; cases h2)
    simp [tailSq, Sq.commits, e.commits, e.feeds, e.heads, Quant.sane, Quant.ok, Quant.lo, Quant.hi, Quant.mode, decides, Quant.fixed, hm]
  | b :: s, hs => by
    have hb := hs b (by simp)
    have e := easy hb.1 (listing_steady hb.2)
    simp [tailSq, Sq.commits, e.commits, tail_commits ha hst h tot s (fun c hc => hs c (List.mem_cons_of_mem _ hc))]

private theorem join_committed {a b : Atom} {s : List Atom} (ha : a.ok = true) (hl : a.listing = true) (hs : Seps (b :: s)) (h1 : ∀ c, a.set c = true → b.set c = false)
    (h2 : a.set 10 = false) (h3 : b.set 10 = false) (hn : s.length < 2147483640) : (Alts.last true (joinSq true a b s)).committed = true := by
  have hst : a.steady = true := listing_steady hl
  have e := easy ha hst
  have hb := (hs b (by simp)).1
  have hstb := listing_steady (hs b (by simp)).2
  have eb := easy hb hstb
  have i := fine ha hst s (fun c hc => hs c (List.mem_cons_of_mem _ hc))
  simp only [Alts.committed, Bool.and_eq_true]
  refine ⟨⟨⟨⟨⟨⟨?_, ?_⟩, ?_⟩, ?_⟩, ?_⟩, ?_⟩, ?_⟩
  · simp [joinSq, Alts.ok, Sq.ok, Atom.ok, ha, hb, Quant.ok, Sq.empty, i.ok]
  · simp [joinSq, i.feeds, i.plainly, i.hatless, i.mute, i.count, Alts.plainly, Sq.plainly, Sq.feeds, e.plainly, e.feeds, e.hatless, e.mute, e.count, Sq.empty, Sq.hatless, Atom.hatless, Alts.hatless, Quant.sane,
      Quant.ok, Quant.lo, Quant.hi, Quant.fixed, Quant.isOnce, eb.plainly, eb.feeds, eb.hatless, eb.mute, eb.count, Atom.plainly, Atom.steady, Alts.feeds, Atom.feeds, Atom.mute, Alts.mute, Sq.mute, Atom.count]
  · simp [joinSq, i.lined, Alts.aligned, Sq.lined, e.lined, eb.lined, Atom.lined, Alts.lined]
  · have hc : ∀ L : Int → Bool, (∀ c, a.set c = true → L c = false) → (tailSq a s).commits false L = true :=
      fun L hL => tail_commits ha hst hL false s (fun c hc => hs c (List.mem_cons_of_mem _ hc))
    simp [joinSq, i.feeds, i.hatless, i.empties, Alts.commits, Sq.commits, e.commits, e.feeds, e.heads, e.empties, e.hatless, eb.commits, eb.feeds, eb.heads, eb.empties, eb.hatless, Sq.hatless, Atom.hatless, Alts.hatless, Sq.empties, Atom.empties, Alts.empties,
      Quant.sane, Quant.ok, Quant.lo, Quant.hi, Quant.mode, decides, Quant.fixed, Sq.heads, Atom.heads, Alts.heads, Atom.commits, Atom.feeds, Alts.feeds, Sq.feeds]
    refine ⟨not_meets (fun x h4 h5 => ?_), not_meets (fun x h4 h5 => ?_), hc _ (fun x h4 => ?_)⟩
    · simp [Sq.upcoming, Sq.heads, eb.heads, eb.empties, Atom.heads, Alts.heads, Sq.empties, Quant.lo, Atom.empties, Alts.empties] at h5
      rcases h5 with h5 | rfl
      · rw [h1 x h4] at h5; cases h5
      · rw [h2] at h4; cases h4
    · simp [Sq.upcoming, Sq.heads, Sq.empties] at h4 h5
      subst h5
      rw [h3] at h4; cases h4
    · have : x ≠ 10 := by rintro rfl; rw [h2] at h4; cases h4
      simp [Sq.upcoming, Sq.heads, Sq.empties, h1 x h4, this]
  · simp [Alts.atFront]
  · simp [joinSq, i.hard, i.slips, i.empties, Alts.hard, Sq.hard, Atom.hard, e.hard, e.isCap, eb.hard, eb.isCap, eb.slips, eb.within, eb.empties, hstb, Atom.isCap, e.slips, Sq.slips, Atom.slips, Alts.slips, Quant.mode, Quant.lo, Quant.hi, Sq.empty, Sq.empties,
      Atom.empties, Alts.empties, Atom.steady, Quant.isOnce, e.within, Atom.within, Alts.within, Sq.within, Sq.firsts, i.within]
    exact Or.inr (Or.inl eb.isCap)
  · simp [joinSq, Alts.bulk, Sq.bulk, e.bulk, eb.bulk, Atom.bulk, Quant.lo, i.bulk]; omega

private theorem join_regular {a b : Atom} {s : List Atom} (ha : a.ok = true) (hl : a.listing = true) (hs : Seps (b :: s)) (h1 : ∀ c, a.set c = true → b.set c = false)
    (hn : s.length < 2147483640) : (Alts.last false (joinSq false a b s)).capRegular = true := by
  have hst : a.steady = true := listing_steady hl
  have hb := (hs b (by simp)).1
  have hlb := (hs b (by simp)).2
  have hstb := listing_steady hlb
  have eb := easy hb hstb
  have i := fine ha hst s (fun c hc => hs c (List.mem_cons_of_mem _ hc))
  have none2 : ∀ f : Int → Bool, meets f (Sq.nil false).looks = false := fun f => not_meets (fun x _ h => by simp [Sq.looks] at h)
  have hi : (Sq.cons b .once (tailSq a s)).regular = true := by
    simp [Sq.regular, hb, hstb, Quant.sane, Quant.ok, Quant.lo, Quant.hi, pieceOk, Quant.mode, Quant.fixed, i.regular]
  have hm : meets a.shown (Sq.cons (.group false (.last false (.cons b .once (tailSq a s)))) (.star .greedy) (.nil false)).looks = false := by
    refine not_meets (fun x h4 h5 => ?_)
    have h5 : b.shown x = true := by simpa [Sq.looks, Alts.head, Sq.shown, Quant.lo] using h5
    have := h1 x (shown_set hl h4)
    rw [shown_set hlb h5] at this; cases this
  have hrep : repOk false (.last false (.cons b .once (tailSq a s))) (.star .greedy) (.nil false) = true := by
    simp [repOk, Alts.bare, Alts.list, hi, Alts.head, Quant.sane, Quant.ok, Quant.lo, Quant.hi, Quant.mode, Quant.fixed, none2, Sq.voids]
    simp [i.dollar, Sq.dollar, Sq.empty, Sq.least, Sq.eats, Quant.lo, i.least]
    omega
  have hat : atomOk a (.plus .greedy) (.cons (.group false (.last false (.cons b .once (tailSq a s)))) (.star .greedy) (.nil false)) = true := by
    simp [atomOk, Quant.mode, clings, hm, Sq.voids, Quant.lo]
  have hcap : (joinSq false a b s).capOk = true := by
    have hg := not_group (a := a) (by simp [hst])
    have hr : (Sq.cons (.group false (.last false (.cons b .once (tailSq a s)))) (.star .greedy) (.nil false)).capOk = true := by
      rw [Sq.capOk]
      · simp [hrep, Sq.capOk]
      · simp
    rw [joinSq]
    cases hw : a <;> first | exact absurd hw (hg _ _) | (rw [hw] at ha hst hat hr; simp only [Sq.capOk] at hr; simp only [Sq.capOk, ha, hst, hat, hr]; simp [Quant.sane, Quant.ok, Quant.hi])
  have htidy : (joinSq false a b s).tidy 0 0 = true := by
    cases a <;> first | (simp [Atom.steady] at hst; done) | simp [joinSq, Sq.tidy]
  have hsl : (joinSq false a b s).startsLoop = true := by
    cases hw : a <;> first | (rw [hw] at hst; simp [Atom.steady] at hst; done) | (rw [hw] at hst; simp [joinSq, Sq.startsLoop, hst, Sq.voids, Quant.lo])
  simp [Alts.capRegular, Alts.capSane, hcap, htidy, hsl]
  simp [joinSq, Sq.empty]

/-! ## the matches -/

private theorem tail_picks (q : List Int) (a : Atom) : ∀ (s : List Atom) (j e : Nat), e ∈ (tailSq a s).picks q j ↔
    ∃ u w r, q.drop j = u ++ (w ++ r) ∧ SepText (s.map Atom.set) u ∧ ItemText a.set w ∧ e = j + u.length + w.length
  | [], j, e => by
    simp only [tailSq, Sq.picks, List.mem_flatMap, List.mem_singleton, plus_texts, List.map_nil, SepText]
    constructor
    · rintro ⟨n, ⟨w, r, h1, rfl, h2, h3⟩, rfl⟩
      exact ⟨[], w, r, h1, rfl, ⟨h2, h3⟩, by simp⟩
    · rintro ⟨u, w, r, h1, rfl, ⟨h2, h3⟩, rfl⟩
      exact ⟨w.length, ⟨w, r, h1, rfl, h2, h3⟩, by simp⟩
  | b :: s, j, e => by
    simp only [tailSq, Sq.picks, counts_once, List.mem_flatMap, List.map_cons, SepText]
    constructor
    · rintro ⟨n, hn, hk⟩
      split at hn
      · rename_i hsep
        simp only [List.mem_singleton] at hn
        subst hn
        obtain ⟨u, w, r, h1, h2, h3, rfl⟩ := (tail_picks q a s _ e).1 hk
        obtain ⟨v, r', g1, g2, g3⟩ := le_run.1 hsep
        match v, g2 with
        | [c], _ =>
          refine ⟨c :: u, w, r, ?_, ⟨c, u, rfl, g3 c (by simp), h2⟩, h3, by simp; omega⟩
          rw [← List.drop_drop, g1] at h1
          rw [g1]
          simpa using h1
      · simp at hn
    · rintro ⟨_, w, r, h1, ⟨c, u, rfl, h4, h5⟩, h2, rfl⟩
      have hsep : 1 ≤ runLen b.set (q.drop j) := le_run.2 ⟨[c], u ++ (w ++ r), by simpa using h1, rfl, by simpa using h4⟩
      refine ⟨1, by simp [hsep], (tail_picks q a s _ _).2 ⟨u, w, r, ?_, h5, h2, by simp; omega⟩⟩
      rw [← List.drop_drop, h1]; simp

private theorem item_picks (q : List Int) (a b : Atom) (s : List Atom) (j e : Nat) : e ∈ (Alts.last false (.cons b .once (tailSq a s))).picks q j ↔
    ∃ u w r, q.drop j = u ++ (w ++ r) ∧ SepText ((b :: s).map Atom.set) u ∧ ItemText a.set w ∧ e = j + u.length + w.length := by
  rw [← tail_picks q a (b :: s) j e]
  simp [Alts.picks, hatPicks, tailSq]

/-- Items, each with the separator in front of it. -/
private def Items (S : Int → Bool) (T : List (Int → Bool)) (more : List (List Int × List Int)) : Prop := ∀ p ∈ more, SepText T p.1 ∧ ItemText S p.2
private def joined (more : List (List Int × List Int)) : List Int := (more.map (fun p => p.1 ++ p.2)).flatten

private theorem many_items (q : List Int) (a b : Atom) (s : List Atom) : ∀ (f : Nat) (p r : Nat × Nat),
    r ∈ manyS (fun j => (Alts.last false (.cons b .once (tailSq a s))).picks q j) f p →
    ∃ more rest, Items a.set ((b :: s).map Atom.set) more ∧ q.drop p.2 = joined more ++ rest ∧ r.2 = p.2 + (joined more).length
  | 0, p, r, h => by
    simp only [manyS, List.mem_singleton] at h
    subst h
    exact ⟨[], q.drop r.2, by simp [Items], by simp [joined], by simp [joined]⟩
  | f + 1, p, r, h => by
    simp only [manyS, List.mem_append, List.mem_flatMap, List.mem_singleton] at h
    rcases h with ⟨e, he, hr⟩ | rfl
    · obtain ⟨u, w, l, h1, h2, h3, rfl⟩ := (item_picks q a b s p.2 e).1 he
      obtain ⟨more, rest, h4, h5, h6⟩ := many_items q a b s f _ r hr
      simp only at h5 h6
      have hd : q.drop (p.2 + u.length + w.length) = l := by
        rw [← List.drop_drop, ← List.drop_drop, h1]; simp
      refine ⟨(u, w) :: more, rest, ?_, ?_, ?_⟩
      · intro v hv
        rcases List.mem_cons.1 hv with rfl | hv
        · exact ⟨h2, h3⟩
        · exact h4 v hv
      · rw [h1, ← hd, h5]; simp [joined]
      · rw [h6]; simp [joined]; omega
    · exact ⟨[], q.drop r.2, by simp [Items], by simp [joined], by simp [joined]⟩

private theorem items_many (q : List Int) (a b : Atom) (s : List Atom) : ∀ (more : List (List Int × List Int)) (f : Nat) (p : Nat × Nat) (rest : List Int), more.length ≤ f →
    Items a.set ((b :: s).map Atom.set) more → q.drop p.2 = joined more ++ rest →
    ∃ r ∈ manyS (fun j => (Alts.last false (.cons b .once (tailSq a s))).picks q j) f p, r.2 = p.2 + (joined more).length
  | [], f, p, rest, _, _, _ => by
    refine ⟨p, ?_, by simp [joined]⟩
    cases f <;> simp [manyS]
  | _ :: more, 0, p, rest, h, _, _ => by simp at h
  | (u, w) :: more, f + 1, p, rest, hf, hi, hd => by
    have hw := hi (u, w) (by simp)
    have e : joined ((u, w) :: more) = u ++ (w ++ joined more) := by simp [joined]
    rw [e, List.append_assoc, List.append_assoc] at hd
    have hin := (item_picks q a b s p.2 _).2 ⟨u, w, joined more ++ rest, hd, hw.1, hw.2, rfl⟩
    have hd' : q.drop (p.2 + u.length + w.length) = joined more ++ rest := by
      rw [← List.drop_drop, ← List.drop_drop, hd]; simp
    obtain ⟨r, hr, hr2⟩ := items_many q a b s more f (p.2, p.2 + u.length + w.length) rest (by simpa using hf) (fun v hv => hi v (List.mem_cons_of_mem _ hv)) hd'
    refine ⟨r, ?_, ?_⟩
    · simp only [manyS, List.mem_append, List.mem_flatMap]
      exact Or.inl ⟨_, hin, hr⟩
    · rw [hr2, e]; simp; omega

private theorem join_caps (d : Bool) {a : Atom} (hst : a.steady = true) (b : Atom) (s : List Atom) (q : List Int) (x : Nat) : caps q (joinSq d a b s) x =
    ((Quant.plus .greedy).counts (runLen a.set (q.drop x))).flatMap (fun n =>
      (manyS (fun j => (Alts.last false (.cons b .once (tailSq a s))).picks q j) q.length (x + n, x + n)).flatMap (fun p => ((Sq.nil d).picks q p.2).map (fun e => (e, [])))) := by
  have hg := not_group (a := a) (by simp [hst])
  have e1 : ∀ y, caps q (.cons (.group false (.last false (.cons b .once (tailSq a s)))) (.star .greedy) (.nil d)) y =
      (manyS (fun j => (Alts.last false (.cons b .once (tailSq a s))).picks q j) q.length (y, y)).flatMap (fun p => ((Sq.nil d).picks q p.2).map (fun e => (e, []))) := by
    intro y
    simp [caps, spans, Quant.mode, Quant.lo, mustS, Quant.extra, Quant.hi, Function.comp_def]
  have e2 : caps q (joinSq d a b s) x = ((Quant.plus .greedy).counts (runLen a.set (q.drop x))).flatMap (fun n =>
      caps q (.cons (.group false (.last false (.cons b .once (tailSq a s)))) (.star .greedy) (.nil d)) (x + n)) := by
    rw [joinSq]
    cases hw : a <;> first | exact absurd hw (hg _ _) | rfl
  rw [e2]
  simp only [e1]

/-- The ends of the lists that begin at `x`, and what may come behind them. -/
private theorem mem_join (d : Bool) {a : Atom} (hst : a.steady = true) (b : Atom) (s : List Atom) (q : List Int) (x : Nat) (r : Nat × List (Nat × Nat)) :
    r ∈ caps q (joinSq d a b s) x ↔ ∃ t rest, q.drop x = t ++ rest ∧ JoinedText a.set ((b :: s).map Atom.set) t ∧ r.2 = [] ∧ r.1 ∈ (Sq.nil d).picks q (x + t.length) := by
  rw [join_caps d hst]
  simp only [List.mem_flatMap, List.mem_map, plus_texts]
  constructor
  · rintro ⟨n, ⟨w, l, h1, rfl, h2, h3⟩, p, hp, e, he, rfl⟩
    obtain ⟨more, rest, h4, h5, h6⟩ := many_items q a b s _ _ _ hp
    simp only at h5 h6
    rw [← List.drop_drop, h1, List.drop_left] at h5
    refine ⟨w ++ joined more, rest, by rw [h1, h5, List.append_assoc], ⟨w, more, rfl, ⟨h2, h3⟩, h4⟩, rfl, ?_⟩
    · simp only [List.length_append]
      rw [h6, Nat.add_assoc] at he
      exact he
  · rintro ⟨t, rest, h1, ⟨w, more, rfl, hw, hm⟩, h3, h4⟩
    have hlen : ∀ more : List (List Int × List Int), Items a.set ((b :: s).map Atom.set) more → more.length ≤ (joined more).length := by
      intro more
      induction more with
      | nil => simp
      | cons w more ih =>
        intro hi
        have h1 := ih (fun v hv => hi v (List.mem_cons_of_mem _ hv))
        have h2 := List.length_pos_iff.2 (hi w (by simp)).2.1
        simp [joined] at h1 ⊢; omega
    have h1' : q.drop x = w ++ (joined more ++ rest) := by rw [h1, joined, List.append_assoc]
    obtain ⟨p, hp, hp2⟩ := items_many q a b s more q.length (x + w.length, x + w.length) rest (by
      have e1 := congrArg List.length h1'
      have e2 := hlen more hm
      simp only [List.length_drop, List.length_append] at e1
      have e3 : 0 < w.length := List.length_pos_iff.2 hw.1
      omega) hm (by
      rw [← List.drop_drop, h1', List.drop_left])
    refine ⟨w.length, ⟨w, _, h1', rfl, hw.1, hw.2⟩, p, hp, r.1, ?_, Prod.ext rfl h3.symm⟩
    rw [hp2]
    simp only [Nat.add_assoc]
    simpa [joined, Nat.add_assoc] using h4

private theorem join_shallow (d : Bool) {a b : Atom} {s : List Atom} (ha : a.ok = true) (hst : a.steady = true) (hs : Seps (b :: s)) : shallow (joinSq d a b s) = true := by
  have hstb := listing_steady (hs b (by simp)).2
  have i := fine ha hst s (fun c hc => hs c (List.mem_cons_of_mem _ hc))
  have h1 : flat (.cons b .once (tailSq a s)) = true := by
    simp [flat, hstb, Quant.sane, Quant.ok, Quant.lo, Quant.hi, i.flat]
  have h2 : repShallow false (.last false (.cons b .once (tailSq a s))) (.star .greedy) = true := by
    simp [repShallow, flats, h1, Alts.list, Quant.mode, Quant.lo]
    simp [Sq.eats, Quant.lo]
  have hg := not_group (a := a) (by simp [hst])
  rw [joinSq]
  cases hw : a <;> first | exact absurd hw (hg _ _) | (rw [hw] at hst h2; simp [shallow, hst, h2, Quant.sane, Quant.ok, Quant.hi])

private theorem sep_chars : ∀ (T : List (Int → Bool)) (u : List Int), SepText T u → ∀ c ∈ u, ∃ S ∈ T, S c = true
  | [], u, h, c, hc => by rw [SepText] at h; subst h; simp at hc
  | S :: T, _, ⟨d, v, rfl, h1, h2⟩, c, hc => by
    rcases List.mem_cons.1 hc with rfl | hc
    · exact ⟨S, by simp, h1⟩
    · obtain ⟨S', h3, h4⟩ := sep_chars T v h2 c hc
      exact ⟨S', by simp [h3], h4⟩

private theorem no_newline {S : Int → Bool} {T : List (Int → Bool)} {t : List Int} (h : JoinedText S T t) (h1 : S 10 = false) (h2 : ∀ U ∈ T, U 10 = false) : ∀ c ∈ t, c ≠ 10 := by
  obtain ⟨w, more, rfl, hw, hm⟩ := h
  intro c hc
  simp only [List.mem_append, List.mem_flatten, List.mem_map] at hc
  rcases hc with hc | ⟨l, ⟨v, hv, rfl⟩, hc⟩
  · rintro rfl
    rw [hw.2 _ hc] at h1; cases h1
  · rcases List.mem_append.1 hc with hc | hc
    · rintro rfl
      obtain ⟨U, g1, g2⟩ := sep_chars T _ (hm v hv).1 _ hc
      rw [h2 U g1] at g2; cases g2
    · rintro rfl
      rw [(hm v hv).2.2 _ hc] at h1; cases h1

/-- **C77.** Checking a list whose separator has several characters: for every `a`, and every sequence `b s` of them, that are characters, escapes (but `\s`) or classes
without `\s` that are not negated and do not take a newline, if the separator cannot begin with a character of an item: `^a+(?:b s a+)*$` accepts a query if and only if the query, up to its end or a newline, is a list:
items of characters of `a`, and between any two of them one separator; the match is the list (and the newline, if there is one). -/
theorem C77_check (a b : Atom) (s : List Atom) (ha : a.ok = true) (hl : a.listing = true) (hs : Seps (b :: s)) (h1 : ∀ c, a.set c = true → b.set c = false) (h2 : a.set 10 = false)
    (h3 : ∀ d ∈ b :: s, d.set 10 = false) (hsl : s.length < 2147483640)
    (hc : ∀ c ∈ [94] ++ joinSpell a (b :: s) ++ [36], c ∈ allChars) :
    ∃ t, compile ([94] ++ joinSpell a (b :: s) ++ [36]) = some t ∧
      ∀ (cx : Ctx), (∀ c ∈ cx.query, c ∈ allChars) → cx.query.length < 4294967295 → cx.post.head? = some 0 →
        ∀ (fuel : Nat), cx.query.length ≤ fuel → ∃ st, construct cx t fuel = .ok st ∧
          (st.accepted = true ↔ ∃ l rest, cx.query = l ++ rest ∧ JoinedText a.set ((b :: s).map Atom.set) l ∧ (rest = [] ∨ rest.head? = some 10)) ∧
          ∀ l rest, cx.query = l ++ rest → JoinedText a.set ((b :: s).map Atom.set) l → (rest = [] ∨ rest.head? = some 10) →
            getGroup st 0 = some (some (0, if rest = [] then (l.length : Int) else l.length + 1)) := by
  have hst := listing_steady hl
  have h3' : ∀ U ∈ (b :: s).map Atom.set, U 10 = false := by
    intro U hU
    obtain ⟨d, hd, rfl⟩ := List.mem_map.1 hU
    exact h3 d hd
  have hsp : (Alts.last true (joinSq true a b s)).spell = [94] ++ joinSpell a (b :: s) ++ [36] := by simp [Alts.spell, join_spell]
  obtain ⟨t, ht, h⟩ := C55_nested_partial (joinSq true a b s) (join_committed ha hl hs h1 h2 (h3 b (by simp)) hsl) (by rw [hsp]; exact hc)
  rw [hsp] at ht
  refine ⟨t, ht, fun cx hq hlen hn fuel hfuel => ?_⟩
  obtain ⟨st, e1, e2⟩ := h cx hq hlen (fun _ => hn) fuel hfuel
  refine ⟨st, e1, ?_⟩
  rw [ways_caps _ (join_shallow true ha hst hs), List.head?_map] at e2
  have hmem : ∀ r, r ∈ caps cx.query (joinSq true a b s) 0 ↔ ∃ l rest, cx.query = l ++ rest ∧ JoinedText a.set ((b :: s).map Atom.set) l ∧ (rest = [] ∨ rest.head? = some 10) ∧
      r = (if rest = [] then l.length else l.length + 1, []) := by
    intro r
    rw [mem_join true hst]
    simp only [List.drop_zero, Nat.zero_add]
    have key : ∀ l rest : List Int, cx.query = l ++ rest → ∀ e, e ∈ (Sq.nil true).picks cx.query l.length ↔
        (rest = [] ∨ rest.head? = some 10) ∧ e = if rest = [] then l.length else l.length + 1 := by
      intro l rest hq e
      simp only [Sq.picks, hq]
      cases rest with
      | nil => simp
      | cons c rest =>
        by_cases hc : c = 10
        · subst hc; simp
        · simp [hc]
    constructor
    · rintro ⟨l, rest, g1, g2, g3, g4⟩
      obtain ⟨g5, g6⟩ := (key l rest g1 r.1).1 g4
      exact ⟨l, rest, g1, g2, g5, Prod.ext g6 g3⟩
    · rintro ⟨l, rest, g1, g2, g3, rfl⟩
      exact ⟨l, rest, g1, g2, rfl, (key l rest g1 _).2 ⟨g3, rfl⟩⟩
  have some_of : ∀ l rest, cx.query = l ++ rest → JoinedText a.set ((b :: s).map Atom.set) l → (rest = [] ∨ rest.head? = some 10) →
      (caps cx.query (joinSq true a b s) 0).head? = some (if rest = [] then l.length else l.length + 1, []) := by
    intro l rest g1 g2 g3
    have hin := (hmem _).2 ⟨l, rest, g1, g2, g3, rfl⟩
    cases heq : caps cx.query (joinSq true a b s) 0 with
    | nil => rw [heq] at hin; simp at hin
    | cons r rs =>
      obtain ⟨l', rest', g1', g2', g3', rfl⟩ := (hmem r).1 (by rw [heq]; simp)
      obtain ⟨rfl, rfl⟩ := one_line (g1.symm.trans g1') (no_newline g2 h2 h3') (no_newline g2' h2 h3') g3 g3'
      rfl
  constructor
  · constructor
    · intro hacc
      cases hh : (caps cx.query (joinSq true a b s) 0).head? with
      | none => rw [hh] at e2; simp only [Option.map_none] at e2; rw [hacc] at e2; cases e2
      | some r =>
        obtain ⟨l, rest, g1, g2, g3, _⟩ := (hmem r).1 (List.mem_of_mem_head? hh)
        exact ⟨l, rest, g1, g2, g3⟩
    · rintro ⟨l, rest, g1, g2, g3⟩
      rw [some_of l rest g1 g2 g3] at e2
      exact e2.1
  · intro l rest g1 g2 g3
    rw [some_of l rest g1 g2 g3] at e2
    rw [e2.2.1]
    simp only
    split <;> simp

/-! ## searching -/

/-- Inside a run of characters of the class there is no separator. -/
private theorem inside_run {q : List Int} {a b : Atom} {s : List Atom} (h1 : ∀ c, a.set c = true → b.set c = false) {x n : Nat} (h : n < runLen a.set (q.drop x)) :
    (Alts.last false (.cons b .once (tailSq a s))).picks q (x + n) = [] := by
  rw [List.eq_nil_iff_forall_not_mem]
  intro e he
  obtain ⟨_, w, r, g1, ⟨c, v, rfl, g2, _⟩, _⟩ := (item_picks q a b s _ e).1 he
  have hsep : q[x + n]? = some c := by
    rw [← List.head?_drop, g1]; rfl
  have := h1 c (run_all (S := a.set) (q := q) (s := x) (Nat.le_refl _) (Nat.le_add_right x n) (by omega) hsep)
  rw [g2] at this; cases this

private theorem tail_shape (q : List Int) (a : Atom) : ∀ (s : List Atom) (j : Nat), (tailSq a s).picks q j = [] ∨
    (tailSq a s).picks q j = ((Quant.plus .greedy).counts (runLen a.set (q.drop (j + s.length)))).map (j + s.length + ·)
  | [], j => Or.inr (by simp [tailSq, Sq.picks, List.map_eq_flatMap])
  | b :: s, j => by
    simp only [tailSq, Sq.picks, counts_once]
    split
    · rcases tail_shape q a s (j + 1) with h | h
      · exact Or.inl (by simp [h])
      · refine Or.inr ?_
        have e : j + 1 + s.length = j + (b :: s).length := by simp; omega
        rw [e] at h
        simpa using h
    · exact Or.inl rfl

private theorem item_max {q : List Int} {a b : Atom} {s : List Atom} (h1 : ∀ c, a.set c = true → b.set c = false) (j e0 : Nat)
    (h : ((Alts.last false (.cons b .once (tailSq a s))).picks q j).head? = some e0) :
    j < e0 ∧ ∀ e ∈ (Alts.last false (.cons b .once (tailSq a s))).picks q j, e = e0 ∨ (e < e0 ∧ (Alts.last false (.cons b .once (tailSq a s))).picks q e = []) := by
  have hp : (Alts.last false (.cons b .once (tailSq a s))).picks q j = (tailSq a (b :: s)).picks q j := by
    simp [Alts.picks, hatPicks, tailSq]
  rw [hp] at h ⊢
  rcases tail_shape q a (b :: s) j with h' | h'
  · rw [h'] at h; simp at h
  · rw [h'] at h ⊢
    rw [List.head?_map] at h
    cases hc : ((Quant.plus .greedy).counts (runLen a.set (q.drop (j + (b :: s).length)))).head? with
    | none => rw [hc] at h; simp at h
    | some n0 =>
      rw [hc] at h
      simp only [Option.map_some, Option.some.injEq] at h
      obtain ⟨p1, p2, p3⟩ := plus_first hc
      refine ⟨by omega, fun e he => ?_⟩
      simp only [List.mem_map] at he
      obtain ⟨n, hn, rfl⟩ := he
      have := p3 n hn
      by_cases hnn : n = n0
      · exact Or.inl (by omega)
      · exact Or.inr ⟨by omega, inside_run h1 (by omega)⟩

/-- The first way is the longest. -/
private theorem join_first {q : List Int} {a : Atom} (hst : a.steady = true) {b : Atom} {s : List Atom} (h1 : ∀ c, a.set c = true → b.set c = false) {x : Nat} {r0 : Nat × List (Nat × Nat)}
    (h : (caps q (joinSq false a b s) x).head? = some r0) : ∀ r ∈ caps q (joinSq false a b s) x, r.1 ≤ r0.1 := by
  have hp : ∀ i, (Sq.nil false).picks q i = [i] := fun i => rfl
  rw [join_caps false hst] at h ⊢
  simp only [hp, List.map_cons, List.map_nil, ← List.map_eq_flatMap] at h ⊢
  cases hc : ((Quant.plus .greedy).counts (runLen a.set (q.drop x))).head? with
  | none => rw [List.head?_eq_none_iff] at hc; rw [hc] at h; simp at h
  | some n0 =>
    obtain ⟨p1, p2, p3⟩ := plus_first hc
    rw [flatMap_head (F := fun n => (manyS (fun j => (Alts.last false (.cons b .once (tailSq a s))).picks q j) q.length (x + n, x + n)).map (fun p => (p.2, ([] : List (Nat × Nat))))) hc
      (by simp [manyS_ne]), List.head?_map] at h
    cases hh : (manyS (fun j => (Alts.last false (.cons b .once (tailSq a s))).picks q j) q.length (x + n0, x + n0)).head? with
    | none => rw [hh] at h; simp at h
    | some s0 =>
      rw [hh] at h
      simp only [Option.map_some, Option.some.injEq] at h
      subst h
      obtain ⟨i1, i2⟩ := many_first (fun j e0 => item_max h1 j e0) _ _ _ hh
      intro r hr
      simp only [List.mem_flatMap, List.mem_map] at hr
      obtain ⟨n, hn, p, hp, rfl⟩ := hr
      have hle := p3 n hn
      by_cases hnn : n = n0
      · subst hnn; exact i2 p hp
      · have hb : (Alts.last false (.cons b .once (tailSq a s))).picks q (x + n) = [] := inside_run h1 (by omega)
        have : p = (x + n, x + n) := by
          revert hp
          generalize q.length = f
          cases f with
          | zero => intro hp; simpa [manyS] using hp
          | succ f => intro hp; simpa [manyS, hb] using hp
        subst this
        simp only at i1 ⊢; omega

/-- **C77.** Searching for such lists: matching, `next()` and a range-for with `a+(?:b s a+)*` report, from left to right and without overlap, the lists in the query: from
where a match begins, the longest list that begins there; in the text skipped, none begins.  Here the items and the separator may take newlines. -/
theorem C77_search (a b : Atom) (s : List Atom) (ha : a.ok = true) (hl : a.listing = true) (hs : Seps (b :: s)) (h1 : ∀ c, a.set c = true → b.set c = false)
    (hsl : s.length < 2147483640)
    (hc : ∀ c ∈ joinSpell a (b :: s), c ∈ allChars) :
    ∃ g : List Int → Nat → Option (Nat × Caps), FindsGroups (joinSpell a (b :: s)) 0 false g ∧
      ∀ q x, (g q x = none → ∀ e, x ≤ e → e ≤ q.length → ¬ JoinedText a.set ((b :: s).map Atom.set) (slice q x e)) ∧
        ∀ w, g q x = some w → x ≤ w.1 ∧ w.1 ≤ q.length ∧ JoinedText a.set ((b :: s).map Atom.set) (slice q x w.1) ∧ ∀ e, x ≤ e → e ≤ q.length → JoinedText a.set ((b :: s).map Atom.set) (slice q x e) → e ≤ w.1 := by
  have hst := listing_steady hl
  have hr := join_regular ha hl hs h1 hsl
  have hsp : (Alts.last false (joinSq false a b s)).spell = joinSpell a (b :: s) := by simp [Alts.spell, join_spell]
  have ht : Alts.takes (.last false (joinSq false a b s)) = true := by
    cases a <;> first | (simp [Atom.steady] at hst; done) | simp [joinSq, Alts.takes, Alts.list, Sq.takes, Quant.lo]
  have hf := C50_groups_partial (.last false (joinSq false a b s)) hr (by rw [hsp]; exact hc) ht
  have hcount : (Alts.last false (joinSq false a b s)).count = 0 := by
    have e := easy ha hst
    have hb := hs b (by simp)
    simp [joinSq, Alts.count, Sq.count, Atom.count, e.count, (easy hb.1 (listing_steady hb.2)).count, (fine ha hst s (fun c hc => hs c (List.mem_cons_of_mem _ hc))).count]
  have hdol : (Alts.last false (joinSq false a b s)).dollar = false := rfl
  rw [hsp, hcount, hdol] at hf
  refine ⟨_, hf, fun q x => ?_⟩
  have hmem : ∀ r, r ∈ caps q (joinSq false a b s) x ↔ ∃ t rest, q.drop x = t ++ rest ∧ JoinedText a.set ((b :: s).map Atom.set) t ∧ r = (x + t.length, []) := by
    intro r
    rw [mem_join false hst]
    simp only [Sq.picks, List.mem_singleton]
    constructor
    · rintro ⟨t, rest, g1, g2, g3, g4⟩; exact ⟨t, rest, g1, g2, Prod.ext g4 g3⟩
    · rintro ⟨t, rest, g1, g2, rfl⟩; exact ⟨t, rest, g1, g2, rfl, rfl⟩
  have hin : ∀ e, x ≤ e → e ≤ q.length → JoinedText a.set ((b :: s).map Atom.set) (slice q x e) → (e, []) ∈ caps q (joinSq false a b s) x := by
    intro e g1 g2 g3
    refine (hmem _).2 ⟨slice q x e, (q.drop x).drop (e - x), (List.take_append_drop _ _).symm, g3, ?_⟩
    simp only [slice, List.length_take, List.length_drop]
    rw [show x + min (e - x) (q.length - x) = e by omega]
  have hbest : bestWay (.last false (joinSq false a b s)) q x = ((caps q (joinSq false a b s) x).head?).map (fun r => (r.1, fill noCaps 0 r.2)) := by
    rw [bestWay]
    simp only [Alts.ways, Bool.false_and, Bool.false_eq_true, if_false]
    rw [ways_caps _ (join_shallow false ha hst hs), List.head?_map]
  rw [hbest]
  constructor
  · intro hnone e g1 g2 g3
    simp only [Option.map_eq_none_iff, List.head?_eq_none_iff] at hnone
    have := hin e g1 g2 g3
    rw [hnone] at this; simp at this
  · intro w hw
    cases hh : (caps q (joinSq false a b s) x).head? with
    | none => rw [hh] at hw; simp at hw
    | some r =>
      rw [hh] at hw
      simp only [Option.map_some, Option.some.injEq] at hw
      subst hw
      have hfirst := join_first hst h1 hh
      obtain ⟨t, rest, g1, g2, rfl⟩ := (hmem r).1 (List.mem_of_mem_head? hh)
      have hsli : slice q x (x + t.length) = t := by simp [slice, g1]
      have hlt : 0 < t.length := by
        obtain ⟨w, more, rfl, hw, _⟩ := g2
        have := List.length_pos_iff.2 hw.1
        simp only [List.length_append]; omega
      have hle := congrArg List.length g1
      simp only [List.length_drop, List.length_append] at hle
      refine ⟨by simp, by simp only; omega, by simp only [hsli]; exact g2, fun e g3 g4 g5 => hfirst _ (hin e g3 g4 g5)⟩


/-- **C77 is false of separators that may begin with a character of an item**: `ax-bx-c` is the items `a`, `b` and `c` with `x-` between them, and `^[a-z]+(?:x-[a-z]+)*$`
rejects it (and accepts `ax-b`). -/
theorem C77_refuted_ambiguous : JoinedText (Atom.cls false [.rng 97 122] false).set ([Atom.chr 120, Atom.chr 45].map Atom.set) (str "ax-bx-c") ∧
    m "^[a-z]+(?:x-[a-z]+)*$" "ax-bx-c" = none ∧ m "^[a-z]+(?:x-[a-z]+)*$" "ax-b" = some [some "ax-b"] := by
  refine ⟨⟨str "a", [(str "x-", str "b"), (str "x-", str "c")], by decide, by unfold ItemText; decide, ?_⟩, by decide +kernel⟩
  intro p hp
  simp only [List.mem_cons, List.not_mem_nil, or_false] at hp
  rcases hp with rfl | rfl
  · exact ⟨⟨120, [45], by decide, by decide, 45, [], by decide, by decide, rfl⟩, by unfold ItemText; decide⟩
  · exact ⟨⟨120, [45], by decide, by decide, 45, [], by decide, by decide, rfl⟩, by unfold ItemText; decide⟩

/-- **C77 has no counterpart for separators that begin with a repetition**: words with blanks between them, commas between them, or a comma with blanks around it: a text
that ends with blanks or commas is not such a list, no match of the pattern in the usual sense exists, and it is accepted. -/
theorem C77_refuted_repeated :
    ((build (str "^\\w+(?: +\\w+)*$")).map (fun b => ends (str "a b ") (toRx b) 0) = some [] ∧ m "^\\w+(?: +\\w+)*$" "a b " = some [some "a b "]) ∧
    ((build (str "^\\w+(?:,+\\w+)*$")).map (fun b => ends (str "a,b,") (toRx b) 0) = some [] ∧ m "^\\w+(?:,+\\w+)*$" "a,b," = some [some "a,b,"]) ∧
    ((build (str "^\\w+(?: *, *\\w+)*$")).map (fun b => ends (str "a, b ") (toRx b) 0) = some [] ∧ m "^\\w+(?: *, *\\w+)*$" "a, b " = some [some "a, b "]) := by decide +kernel

end ERegex.Props

import Verif.Props.Format
import Verif.Props.NestedMore
import Verif.Spec.Lists
/-!
# C72 : lists of items with a separator
-/
set_option autoImplicit false
namespace ERegex.Props
open ERegex ERegex.Spec
open ERegex.Conformance (lit m)

/-- `b a+` -/
private def itemSq (a b : Atom) : Sq := .cons b .once (.cons a (.plus .greedy) (.nil false))
/-- `a+(?:b a+)*`, `$` behind it if `d` -/
private def listSq (d : Bool) (a b : Atom) : Sq :=
  .cons a (.plus .greedy) (.cons (.group false (.last false (itemSq a b))) (.star .greedy) (.nil d))

/-- `a+(?:b a+)*` -/
def listSpell (a b : Atom) : List Int := a.spell ++ [43, 40, 63, 58] ++ b.spell ++ a.spell ++ [43, 41, 42]

private theorem list_spell (d : Bool) (a b : Atom) : (listSq d a b).spell = listSpell a b ++ if d then [36] else [] := by
  cases d <;> simp [listSq, itemSq, listSpell, Alts.spell, Sq.spell, Atom.spell, Quant.spell, QMode.spell]

/-! Cases that meet the conditions: words separated by commas, numbers separated by dots. -/
example : listSpell (.esc 119) (.chr 44) = str "\\w+(?:,\\w+)*" ∧ (Atom.esc 119).ok = true ∧ (Atom.esc 119).listing = true ∧ (Atom.chr 44).ok = true ∧
    (Atom.chr 44).listing = true ∧ (Atom.esc 119).set 10 = false ∧ (Atom.chr 44).set 10 = false ∧
    ∀ c ∈ [94] ++ listSpell (.esc 119) (.chr 44) ++ [36], c ∈ allChars := by decide +kernel
example : ∀ c, (Atom.esc 119).set c = true → (Atom.chr 44).set c = false := by
  intro c h
  have : c ≠ 44 := by rintro rfl; revert h; decide
  simpa [Atom.set] using this
example : listSpell (.cls false [.rng 48 57] false) (.esc 46) = str "[0-9]+(?:\\.[0-9]+)*" ∧ (Atom.cls false [.rng 48 57] false).ok = true ∧
    (Atom.cls false [.rng 48 57] false).listing = true ∧ (Atom.esc 46).ok = true ∧ (Atom.esc 46).listing = true ∧
    (Atom.cls false [.rng 48 57] false).set 10 = false ∧ (Atom.esc 46).set 10 = false ∧
    ∀ c ∈ [94] ++ listSpell (.cls false [.rng 48 57] false) (.esc 46) ++ [36], c ∈ allChars := by decide +kernel
example : ∀ c, (Atom.cls false [.rng 48 57] false).set c = true → (Atom.esc 46).set c = false := by
  intro c h
  have : c ≠ 46 := by rintro rfl; revert h; decide
  simpa [Atom.set, escape] using this
example : ListText (Atom.esc 119).set (Atom.chr 44).set (str "a,bc") := ⟨str "a", [(44, str "bc")], by decide, by unfold ItemText; decide, by unfold ItemText; decide⟩
example : m "^[0-9]+(?:\\.[0-9]+)*$" "10.2.33" = some [some "10.2.33"] ∧ m "^[0-9]+(?:\\.[0-9]+)*$" "10..33" = none ∧
    m "[a-z]+(?:[,;][a-z]+)*" "1a,b;c,,d" = some [some "a,b;c"] := by decide +kernel
example : m "^\\w+(?:,\\w+)*$" "a,bc" = some [some "a,bc"] ∧ m "^\\w+(?:,\\w+)*$" "a,bc," = none ∧ m "^\\w+(?:,\\w+)*$" ",a" = none ∧
    m "\\w+(?:,\\w+)*" "..a,b,,c;d,e" = some [some "a,b"] ∧ m "\\w+(?:,\\w+)*" "..a,b,,c;d,e" 1 = some [some "c"] ∧
    m "\\w+(?:,\\w+)*" "..a,b,,c;d,e" 2 = some [some "d,e"] := by decide +kernel

structure Easy (a : Atom) : Prop where
  feeds : a.feeds = true
  empties : a.empties = false
  heads : a.heads = a.set
  hatless : a.hatless = true
  count : a.count = 0
  plainly : a.plainly = true
  mute : a.mute = true
  forced : a.forced = true
  lined : ∀ g n, a.lined g n = true
  isCap : a.isCap = false
  slips : ∀ S, a.slips S = true
  hard : ∀ J, a.hard J = true
  dollars : a.dollars = false
  bulk : a.bulk = 1
  commits : ∀ t L, a.commits t L = true
  within : a.within (fun _ => true) = true

theorem easy {a : Atom} (h : a.ok = true) (hl : a.steady = true) : Easy a := by
  cases a with
  | group _ _ => simp [Atom.steady] at hl
  | _ =>
    exact ⟨rfl, rfl, rfl, rfl, rfl, by simp only [Atom.plainly, h, hl]; rfl, rfl, rfl, fun _ _ => rfl, rfl, fun _ => hl, fun _ => rfl, rfl, rfl, fun _ _ => rfl,
      by simp [Atom.within]⟩

private theorem list_committed {a b : Atom} (ha : a.ok = true) (hl : a.listing = true) (hb : b.ok = true) (hlb : b.listing = true) (h1 : ∀ c, a.set c = true → b.set c = false) (h2 : a.set 10 = false)
    (h3 : b.set 10 = false) : (Alts.last true (listSq true a b)).committed = true := by
  have hst : a.steady = true := by simp only [Atom.listing, Bool.and_eq_true] at hl; exact hl.1
  have e := easy ha hst
  have hstb := listing_steady hlb
  have eb := easy hb hstb
  simp only [Alts.committed, Bool.and_eq_true]
  refine ⟨⟨⟨⟨⟨⟨?_, ?_⟩, ?_⟩, ?_⟩, ?_⟩, ?_⟩, ?_⟩
  · simp [listSq, itemSq, Alts.ok, Sq.ok, Atom.ok, ha, hb, Quant.ok, Sq.empty]
  · simp [listSq, itemSq, Alts.plainly, Sq.plainly, Sq.feeds, e.plainly, e.feeds, e.hatless, e.mute, e.count, Sq.empty, Sq.hatless, Atom.hatless, Alts.hatless, Quant.sane,
      Quant.ok, Quant.lo, Quant.hi, Quant.fixed, Quant.isOnce, eb.plainly, eb.feeds, eb.hatless, eb.mute, eb.count, Atom.plainly, Atom.steady, Alts.feeds, Atom.feeds, Atom.mute, Alts.mute, Sq.mute, Atom.count]
  · simp [listSq, itemSq, Alts.aligned, Sq.lined, e.lined, eb.lined, Atom.lined, Alts.lined]
  · simp [listSq, itemSq, Alts.commits, Sq.commits, e.commits, e.feeds, e.heads, e.empties, e.hatless, eb.commits, eb.feeds, eb.heads, eb.empties, eb.hatless, Sq.hatless, Atom.hatless, Alts.hatless, Sq.empties, Atom.empties, Alts.empties,
      Quant.sane, Quant.ok, Quant.lo, Quant.hi, Quant.mode, decides, Quant.fixed, Sq.upcoming, Sq.heads, Atom.heads, Alts.heads, Atom.commits, Atom.feeds, Alts.feeds, Sq.feeds]
    refine ⟨not_meets (fun x h4 h5 => ?_), not_meets (fun x h4 h5 => ?_), not_meets (fun x h4 h5 => ?_)⟩
    · simp [Sq.upcoming, Sq.heads, eb.heads, eb.empties, Atom.heads, Alts.heads, Sq.empties, Quant.lo, Atom.empties, Alts.empties] at h5
      rcases h5 with h5 | rfl
      · rw [h1 x h4] at h5; cases h5
      · rw [h2] at h4; cases h4
    · simp [Sq.upcoming, Sq.heads, Sq.empties] at h4 h5
      subst h5
      rw [h3] at h4; cases h4
    · simp [Sq.upcoming, Sq.heads, Sq.empties] at h5
      rcases h5 with h5 | rfl
      · rw [h1 x h4] at h5; cases h5
      · rw [h2] at h4; cases h4
  · simp [Alts.atFront]
  · simp [listSq, itemSq, Alts.hard, Sq.hard, Atom.hard, e.hard, e.isCap, eb.hard, eb.isCap, eb.slips, eb.within, eb.empties, hstb, Atom.isCap, e.slips, Sq.slips, Atom.slips, Alts.slips, Quant.mode, Quant.lo, Quant.hi, Sq.empty, Sq.empties,
      Atom.empties, Alts.empties, Atom.steady, Quant.isOnce, e.within, Atom.within, Alts.within, Sq.within, Sq.firsts]
    exact ⟨not_meets (fun x _ h => by cases h), Or.inr (Or.inl (Or.inr eb.isCap))⟩
  · simp [listSq, itemSq, Alts.bulk, Sq.bulk, e.bulk, eb.bulk, Atom.bulk, Quant.lo]

private theorem list_regular {a b : Atom} (ha : a.ok = true) (hl : a.listing = true) (hb : b.ok = true) (hlb : b.listing = true) (h1 : ∀ c, a.set c = true → b.set c = false) :
    (Alts.last false (listSq false a b)).capRegular = true := by
  have hst : a.steady = true := by simp only [Atom.listing, Bool.and_eq_true] at hl; exact hl.1
  have hstb := listing_steady hlb
  have eb := easy hb hstb
  have none : ∀ f : Int → Bool, meets f (fun _ => false) = false := fun f => not_meets (fun x _ h => by cases h)
  have none' : ∀ f : Int → Bool, meets f (Sq.nil false).shown = false := fun f => not_meets (fun x _ h => by simp [Sq.shown] at h)
  have none2 : ∀ f : Int → Bool, meets f (Sq.nil false).looks = false := fun f => not_meets (fun x _ h => by simp [Sq.looks] at h)
  have hi : (itemSq a b).regular = true := by
    simp [itemSq, Sq.regular, hb, ha, hst, hstb, Quant.sane, Quant.ok, Quant.lo, Quant.hi, pieceOk, Quant.mode, Quant.fixed, Sq.nullable, keeps, none']
  have hm : meets a.shown (Sq.cons (.group false (.last false (itemSq a b))) (.star .greedy) (.nil false)).looks = false := by
    refine not_meets (fun x h4 h5 => ?_)
    have h5 : b.shown x = true := by simpa [Sq.looks, Alts.head, itemSq, Sq.shown, Quant.lo] using h5
    have := h1 x (shown_set hl h4)
    rw [shown_set hlb h5] at this; cases this
  have hset : settled (.nil false) (itemSq a b) = true := by
    simp [settled, itemSq, Quant.mode, Quant.fixed, Sq.nullable, Sq.voids]
  have hrep : repOk false (.last false (itemSq a b)) (.star .greedy) (.nil false) = true := by
    simp [repOk, Alts.bare, Alts.list, hi, Alts.head, Quant.sane, Quant.ok, Quant.lo, Quant.hi, Quant.mode, Quant.fixed, none2, Sq.voids]
    simp [itemSq, Sq.dollar, Sq.empty, Sq.least, Sq.eats, Quant.lo]
  have hat : atomOk a (.plus .greedy) (.cons (.group false (.last false (itemSq a b))) (.star .greedy) (.nil false)) = true := by
    simp [atomOk, Quant.mode, clings, hm, Sq.voids, Quant.lo]
  have hcap : (listSq false a b).capOk = true := by
    have hg := not_group (a := a) (by simp [hst])
    have hr : (Sq.cons (.group false (.last false (itemSq a b))) (.star .greedy) (.nil false)).capOk = true := by
      rw [Sq.capOk]
      · simp [hrep, Sq.capOk]
      · simp
    rw [listSq]
    cases hw : a <;> first | exact absurd hw (hg _ _) | (rw [hw] at ha hst hat hr; simp only [Sq.capOk] at hr; simp only [Sq.capOk, ha, hst, hat, hr]; simp [Quant.sane, Quant.ok, Quant.hi])
  have htidy : (listSq false a b).tidy 0 0 = true := by
    cases a <;> first | (simp [Atom.steady] at hst; done) | simp [listSq, Sq.tidy]
  have hsl : (listSq false a b).startsLoop = true := by
    cases hw : a <;> first | (rw [hw] at hst; simp [Atom.steady] at hst; done) | (rw [hw] at hst; simp [listSq, Sq.startsLoop, hst, Sq.voids, Quant.lo])
  simp [Alts.capRegular, Alts.capSane, hcap, htidy, hsl]
  simp [listSq, Sq.empty]

/-! ## the matches -/

private theorem item_picks (q : List Int) (a b : Atom) (j e : Nat) : e ∈ (Alts.last false (itemSq a b)).picks q j ↔
    ∃ s w r, q.drop j = s :: w ++ r ∧ b.set s = true ∧ ItemText a.set w ∧ e = j + 1 + w.length := by
  simp only [Alts.picks, hatPicks, Bool.false_and, Bool.false_eq_true, if_false, itemSq, Sq.picks, counts_once, List.mem_flatMap, List.mem_singleton]
  constructor
  · rintro ⟨n, hn, k, hk, rfl⟩
    split at hn
    · rename_i hsep
      simp only [List.mem_singleton] at hn
      subst hn
      have hk := counts_sub _ _ _ hk
      obtain ⟨w, r, h1, h2, h3⟩ := le_run.1 hk.2
      obtain ⟨u, r', g1, g2, g3⟩ := le_run.1 hsep
      match u, g2 with
      | [s], _ =>
        refine ⟨s, w, r, ?_, g3 s (by simp), ⟨?_, h3⟩, by omega⟩
        · rw [← List.drop_drop, g1] at h1
          rw [g1, ← List.cons_append.symm]
          simpa using h1
        · have := hk.1.1
          simp only [Quant.lo] at this
          rintro rfl
          simp at h2; omega
    · simp at hn
  · rintro ⟨s, w, r, h1, h4, ⟨h2, h3⟩, rfl⟩
    have hsep : 1 ≤ runLen b.set (q.drop j) := le_run.2 ⟨[s], w ++ r, by simpa using h1, rfl, by simpa using h4⟩
    refine ⟨1, by simp [hsep], w.length, ?_, rfl⟩
    rw [mem_greedy _ _ _ (by simp [Quant.mode])]
    refine ⟨⟨?_, fun h hh => by simp [Quant.hi] at hh⟩, le_run.2 ⟨w, r, ?_, rfl, h3⟩⟩
    · cases w with
      | nil => exact absurd rfl h2
      | cons => simp [Quant.lo]
    · rw [← List.drop_drop, h1]; simp

/-- Items, each with the separator in front of it. -/
private def Items (S T : Int → Bool) (more : List (Int × List Int)) : Prop := ∀ p ∈ more, T p.1 = true ∧ ItemText S p.2
private def joined (more : List (Int × List Int)) : List Int := (more.map (fun p => p.1 :: p.2)).flatten

private theorem many_items (q : List Int) (a b : Atom) : ∀ (f : Nat) (p r : Nat × Nat), r ∈ manyS (fun j => (Alts.last false (itemSq a b)).picks q j) f p →
    ∃ more rest, Items a.set b.set more ∧ q.drop p.2 = joined more ++ rest ∧ r.2 = p.2 + (joined more).length
  | 0, p, r, h => by
    simp only [manyS, List.mem_singleton] at h
    subst h
    exact ⟨[], q.drop r.2, by simp [Items], by simp [joined], by simp [joined]⟩
  | f + 1, p, r, h => by
    simp only [manyS, List.mem_append, List.mem_flatMap, List.mem_singleton] at h
    rcases h with ⟨e, he, hr⟩ | rfl
    · obtain ⟨s, w, l, h1, h2, h3, rfl⟩ := (item_picks q a b p.2 e).1 he
      obtain ⟨more, rest, h4, h5, h6⟩ := many_items q a b f _ r hr
      simp only at h5 h6
      have hd : q.drop (p.2 + 1 + w.length) = l := by
        rw [show p.2 + 1 + w.length = p.2 + (s :: w).length by simp; omega, ← List.drop_drop, h1]; simp
      refine ⟨(s, w) :: more, rest, ?_, ?_, ?_⟩
      · intro v hv
        rcases List.mem_cons.1 hv with rfl | hv
        · exact ⟨h2, h3⟩
        · exact h4 v hv
      · rw [h1, ← hd, h5]; simp [joined]
      · rw [h6]; simp [joined]; omega
    · exact ⟨[], q.drop r.2, by simp [Items], by simp [joined], by simp [joined]⟩

private theorem items_many (q : List Int) (a b : Atom) : ∀ (more : List (Int × List Int)) (f : Nat) (p : Nat × Nat) (rest : List Int), more.length ≤ f → Items a.set b.set more →
    q.drop p.2 = joined more ++ rest → ∃ r ∈ manyS (fun j => (Alts.last false (itemSq a b)).picks q j) f p, r.2 = p.2 + (joined more).length
  | [], f, p, rest, _, _, _ => by
    refine ⟨p, ?_, by simp [joined]⟩
    cases f <;> simp [manyS]
  | _ :: more, 0, p, rest, h, _, _ => by simp at h
  | (s, w) :: more, f + 1, p, rest, hf, hi, hd => by
    have hw := hi (s, w) (by simp)
    have e : joined ((s, w) :: more) = s :: w ++ joined more := by simp [joined]
    rw [e, List.append_assoc] at hd
    have hin := (item_picks q a b p.2 _).2 ⟨s, w, joined more ++ rest, hd, hw.1, hw.2, rfl⟩
    have hd' : q.drop (p.2 + 1 + w.length) = joined more ++ rest := by
      rw [show p.2 + 1 + w.length = p.2 + (s :: w).length by simp; omega, ← List.drop_drop, hd]; simp
    obtain ⟨r, hr, hr2⟩ := items_many q a b more f (p.2, p.2 + 1 + w.length) rest (by simpa using hf) (fun v hv => hi v (List.mem_cons_of_mem _ hv)) hd'
    refine ⟨r, ?_, ?_⟩
    · simp only [manyS, List.mem_append, List.mem_flatMap]
      exact Or.inl ⟨_, hin, hr⟩
    · rw [hr2, e]; simp; omega

private theorem list_caps (d : Bool) {a : Atom} (hst : a.steady = true) (b : Atom) (q : List Int) (x : Nat) : caps q (listSq d a b) x =
    ((Quant.plus .greedy).counts (runLen a.set (q.drop x))).flatMap (fun n =>
      (manyS (fun j => (Alts.last false (itemSq a b)).picks q j) q.length (x + n, x + n)).flatMap (fun p => ((Sq.nil d).picks q p.2).map (fun e => (e, [])))) := by
  have hg := not_group (a := a) (by simp [hst])
  have e1 : ∀ y, caps q (.cons (.group false (.last false (itemSq a b))) (.star .greedy) (.nil d)) y =
      (manyS (fun j => (Alts.last false (itemSq a b)).picks q j) q.length (y, y)).flatMap (fun p => ((Sq.nil d).picks q p.2).map (fun e => (e, []))) := by
    intro y
    simp [caps, spans, Quant.mode, Quant.lo, mustS, Quant.extra, Quant.hi, Function.comp_def]
  have e2 : caps q (listSq d a b) x = ((Quant.plus .greedy).counts (runLen a.set (q.drop x))).flatMap (fun n =>
      caps q (.cons (.group false (.last false (itemSq a b))) (.star .greedy) (.nil d)) (x + n)) := by
    rw [listSq]
    cases hw : a <;> first | exact absurd hw (hg _ _) | rfl
  rw [e2]
  simp only [e1]

theorem plus_texts {S : Int → Bool} {l : List Int} {n : Nat} : n ∈ (Quant.plus .greedy).counts (runLen S l) ↔
    ∃ w r, l = w ++ r ∧ w.length = n ∧ w ≠ [] ∧ ∀ c ∈ w, S c = true := by
  rw [mem_greedy _ _ _ (by simp [Quant.mode]), le_run, Allowed]
  constructor
  · rintro ⟨h1, w, r, h2, h3, h4⟩
    refine ⟨w, r, h2, h3, ?_, h4⟩
    rintro rfl
    have := h1.1
    simp [Quant.lo] at this h3; omega
  · rintro ⟨w, r, h2, h3, h4, h5⟩
    refine ⟨⟨?_, fun h hh => by simp [Quant.hi] at hh⟩, w, r, h2, h3, h5⟩
    cases w with
    | nil => exact absurd rfl h4
    | cons => simp [Quant.lo] at h3 ⊢; omega

/-- The ends of the lists that begin at `x`, and what may come behind them. -/
private theorem mem_list (d : Bool) {a : Atom} (hst : a.steady = true) (b : Atom) (q : List Int) (x : Nat) (r : Nat × List (Nat × Nat)) :
    r ∈ caps q (listSq d a b) x ↔ ∃ t rest, q.drop x = t ++ rest ∧ ListText a.set b.set t ∧ r.2 = [] ∧ r.1 ∈ (Sq.nil d).picks q (x + t.length) := by
  rw [list_caps d hst]
  simp only [List.mem_flatMap, List.mem_map, plus_texts]
  constructor
  · rintro ⟨n, ⟨w, l, h1, rfl, h2, h3⟩, p, hp, e, he, rfl⟩
    obtain ⟨more, rest, h4, h5, h6⟩ := many_items q a b _ _ _ hp
    simp only at h5 h6
    rw [← List.drop_drop, h1, List.drop_left] at h5
    refine ⟨w ++ joined more, rest, by rw [h1, h5, List.append_assoc], ⟨w, more, rfl, ⟨h2, h3⟩, h4⟩, rfl, ?_⟩
    · simp only [List.length_append]
      rw [h6, Nat.add_assoc] at he
      exact he
  · rintro ⟨t, rest, h1, ⟨w, more, rfl, hw, hm⟩, h3, h4⟩
    have hlen : ∀ more : List (Int × List Int), more.length ≤ (joined more).length := by
      intro more
      induction more with
      | nil => simp
      | cons w more ih => simp [joined] at ih ⊢; omega
    have h1' : q.drop x = w ++ (joined more ++ rest) := by rw [h1, joined, List.append_assoc]
    obtain ⟨p, hp, hp2⟩ := items_many q a b more q.length (x + w.length, x + w.length) rest (by
      have e1 := congrArg List.length h1'
      have e2 := hlen more
      simp only [List.length_drop, List.length_append] at e1
      have e3 : 0 < w.length := List.length_pos_iff.2 hw.1
      omega) hm (by
      rw [← List.drop_drop, h1', List.drop_left])
    refine ⟨w.length, ⟨w, _, h1', rfl, hw.1, hw.2⟩, p, hp, r.1, ?_, Prod.ext rfl h3.symm⟩
    rw [hp2]
    simp only [Nat.add_assoc]
    simpa [joined, Nat.add_assoc] using h4

private theorem list_shallow (d : Bool) {a b : Atom} (hst : a.steady = true) (hstb : b.steady = true) : shallow (listSq d a b) = true := by
  have h1 : flat (itemSq a b) = true := by
    simp [itemSq, flat, hst, hstb, Quant.sane, Quant.ok, Quant.lo, Quant.hi]
  have h2 : repShallow false (.last false (itemSq a b)) (.star .greedy) = true := by
    simp [repShallow, flats, h1, Alts.list, Quant.mode, Quant.lo]
    simp [itemSq, Sq.eats, Quant.lo]
  have hg := not_group (a := a) (by simp [hst])
  rw [listSq]
  cases hw : a <;> first | exact absurd hw (hg _ _) | (rw [hw] at hst h2; simp [shallow, hst, h2, Quant.sane, Quant.ok, Quant.hi])

private theorem no_newline {S : Int → Bool} {T : Int → Bool} {t : List Int} (h : ListText S T t) (h1 : S 10 = false) (h2 : T 10 = false) : ∀ c ∈ t, c ≠ 10 := by
  obtain ⟨w, more, rfl, hw, hm⟩ := h
  intro c hc
  simp only [List.mem_append, List.mem_flatten, List.mem_map] at hc
  rcases hc with hc | ⟨l, ⟨v, hv, rfl⟩, hc⟩
  · rintro rfl
    rw [hw.2 _ hc] at h1; cases h1
  · rcases List.mem_cons.1 hc with rfl | hc
    · intro h
      rw [← h, (hm v hv).1] at h2; cases h2
    · rintro rfl
      rw [(hm v hv).2.2 _ hc] at h1; cases h1

theorem one_line {t t' rest rest' : List Int} (h : t ++ rest = t' ++ rest') (h1 : ∀ c ∈ t, c ≠ (10 : Int)) (h2 : ∀ c ∈ t', c ≠ (10 : Int))
    (h3 : rest = [] ∨ rest.head? = some 10) (h4 : rest' = [] ∨ rest'.head? = some 10) : t = t' ∧ rest = rest' := by
  have hh : ∀ r : List Int, (r = [] ∨ r.head? = some 10) → ∀ c, r.head? = some c → (c != 10) = false := by
    rintro r (rfl | hr) c hc
    · simp at hc
    · rw [hr] at hc; cases hc; rfl
  exact same_run (S := fun c => c != 10) h (fun c hc => by simpa using h1 c hc) (fun c hc => by simpa using h2 c hc) (hh _ h3) (hh _ h4)

/-- **C72.** Checking a list: for every `a` and `b` that are characters, escapes (but `\s`) or classes without `\s` that are not negated, have no character in common and do
not take a newline: `^a+(?:b a+)*$` accepts a query if and only if the query, up to its end or a newline, is a list: items of characters of `a`, and between any two of them
one separator, a character of `b`; the match is the list (and the newline, if there is one). -/
theorem C72_check (a b : Atom) (ha : a.ok = true) (hl : a.listing = true) (hb : b.ok = true) (hlb : b.listing = true) (h1 : ∀ c, a.set c = true → b.set c = false) (h2 : a.set 10 = false) (h3 : b.set 10 = false)
    (hc : ∀ c ∈ [94] ++ listSpell a b ++ [36], c ∈ allChars) :
    ∃ t, compile ([94] ++ listSpell a b ++ [36]) = some t ∧
      ∀ (cx : Ctx), (∀ c ∈ cx.query, c ∈ allChars) → cx.query.length < 4294967295 → cx.post.head? = some 0 →
        ∀ (fuel : Nat), cx.query.length ≤ fuel → ∃ st, construct cx t fuel = .ok st ∧
          (st.accepted = true ↔ ∃ l rest, cx.query = l ++ rest ∧ ListText a.set b.set l ∧ (rest = [] ∨ rest.head? = some 10)) ∧
          ∀ l rest, cx.query = l ++ rest → ListText a.set b.set l → (rest = [] ∨ rest.head? = some 10) →
            getGroup st 0 = some (some (0, if rest = [] then (l.length : Int) else l.length + 1)) := by
  have hst := listing_steady hl
  have hsp : (Alts.last true (listSq true a b)).spell = [94] ++ listSpell a b ++ [36] := by simp [Alts.spell, list_spell]
  obtain ⟨t, ht, h⟩ := C55_nested_partial (listSq true a b) (list_committed ha hl hb hlb h1 h2 h3) (by rw [hsp]; exact hc)
  rw [hsp] at ht
  refine ⟨t, ht, fun cx hq hlen hn fuel hfuel => ?_⟩
  obtain ⟨st, e1, e2⟩ := h cx hq hlen (fun _ => hn) fuel hfuel
  refine ⟨st, e1, ?_⟩
  rw [ways_caps _ (list_shallow true hst (listing_steady hlb)), List.head?_map] at e2
  have hmem : ∀ r, r ∈ caps cx.query (listSq true a b) 0 ↔ ∃ l rest, cx.query = l ++ rest ∧ ListText a.set b.set l ∧ (rest = [] ∨ rest.head? = some 10) ∧
      r = (if rest = [] then l.length else l.length + 1, []) := by
    intro r
    rw [mem_list true hst]
    simp only [List.drop_zero, Nat.zero_add]
    have key : ∀ l rest : List Int, cx.query = l ++ rest → ∀ e, e ∈ (Sq.nil true).picks cx.query l.length ↔
        (rest = [] ∨ rest.head? = some 10) ∧ e = if rest = [] then l.length else l.length + 1 := by
      intro l rest hq e
      simp only [Sq.picks, hq]
      cases rest with
      | nil => simp
      | cons c rest =>
        by_cases hc : c = 10
        · subst hc; simp
        · simp [hc]
    constructor
    · rintro ⟨l, rest, g1, g2, g3, g4⟩
      obtain ⟨g5, g6⟩ := (key l rest g1 r.1).1 g4
      exact ⟨l, rest, g1, g2, g5, Prod.ext g6 g3⟩
    · rintro ⟨l, rest, g1, g2, g3, rfl⟩
      exact ⟨l, rest, g1, g2, rfl, (key l rest g1 _).2 ⟨g3, rfl⟩⟩
  have some_of : ∀ l rest, cx.query = l ++ rest → ListText a.set b.set l → (rest = [] ∨ rest.head? = some 10) →
      (caps cx.query (listSq true a b) 0).head? = some (if rest = [] then l.length else l.length + 1, []) := by
    intro l rest g1 g2 g3
    have hin := (hmem _).2 ⟨l, rest, g1, g2, g3, rfl⟩
    cases hstb : caps cx.query (listSq true a b) 0 with
    | nil => rw [hstb] at hin; simp at hin
    | cons r rs =>
      obtain ⟨l', rest', g1', g2', g3', rfl⟩ := (hmem r).1 (by rw [hstb]; simp)
      obtain ⟨rfl, rfl⟩ := one_line (g1.symm.trans g1') (no_newline g2 h2 h3) (no_newline g2' h2 h3) g3 g3'
      rfl
  constructor
  · constructor
    · intro hacc
      cases hh : (caps cx.query (listSq true a b) 0).head? with
      | none => rw [hh] at e2; simp only [Option.map_none] at e2; rw [hacc] at e2; cases e2
      | some r =>
        obtain ⟨l, rest, g1, g2, g3, _⟩ := (hmem r).1 (List.mem_of_mem_head? hh)
        exact ⟨l, rest, g1, g2, g3⟩
    · rintro ⟨l, rest, g1, g2, g3⟩
      rw [some_of l rest g1 g2 g3] at e2
      exact e2.1
  · intro l rest g1 g2 g3
    rw [some_of l rest g1 g2 g3] at e2
    rw [e2.2.1]
    simp only
    split <;> simp

/-! ## searching -/

theorem many_first {body : Nat → List Nat} (hmax : ∀ j e0, (body j).head? = some e0 → j < e0 ∧ ∀ e ∈ body j, e = e0 ∨ (e < e0 ∧ body e = [])) : ∀ (f : Nat) (p r0 : Nat × Nat),
    (manyS body f p).head? = some r0 → p.2 ≤ r0.2 ∧ ∀ r ∈ manyS body f p, r.2 ≤ r0.2
  | 0, p, r0, h => by
    simp only [manyS, List.head?_cons, Option.some.injEq] at h
    subst h
    simp [manyS]
  | f + 1, p, r0, h => by
    cases hb : (body p.2).head? with
    | none =>
      rw [List.head?_eq_none_iff] at hb
      simp only [manyS, hb, List.flatMap_nil, List.nil_append, List.head?_cons, Option.some.injEq] at h ⊢
      subst h
      simp
    | some e0 =>
      obtain ⟨m1, m2⟩ := hmax _ _ hb
      have hd := flatMap_head (F := fun e => manyS body f (p.2, e)) hb (manyS_ne _ _ _)
      cases hh : (manyS body f (p.2, e0)).head? with
      | none => exact absurd (List.head?_eq_none_iff.1 hh) (manyS_ne _ _ _)
      | some r1 =>
        have : r0 = r1 := by
          simp only [manyS, List.head?_append, hd, hh] at h
          simpa using h.symm
        subst this
        obtain ⟨i1, i2⟩ := many_first hmax f (p.2, e0) r0 hh
        simp only at i1
        refine ⟨by omega, fun r hr => ?_⟩
        simp only [manyS, List.mem_append, List.mem_flatMap, List.mem_singleton] at hr
        rcases hr with ⟨e, he, hr⟩ | rfl
        · rcases m2 e he with rfl | ⟨m3, m4⟩
          · exact i2 r hr
          · have : r = (p.2, e) := by
              cases f with
              | zero => simpa [manyS] using hr
              | succ f => simpa [manyS, m4] using hr
            subst this
            simp only; omega
        · omega

theorem plus_first {S : Int → Bool} {l : List Int} {n0 : Nat} (h : ((Quant.plus .greedy).counts (runLen S l)).head? = some n0) :
    n0 = runLen S l ∧ 0 < n0 ∧ ∀ n ∈ (Quant.plus .greedy).counts (runLen S l), n ≤ n0 := by
  generalize runLen S l = r at *
  have e : (Quant.plus .greedy).counts r = (List.range' 1 r).reverse := by simp [Quant.counts, Quant.mode, Quant.lo, Quant.top, Quant.hi]
  rw [e] at h ⊢
  cases r with
  | zero => simp at h
  | succ r =>
    rw [List.range'_1_concat, List.reverse_append] at h
    simp at h
    refine ⟨by omega, by omega, fun n hn => ?_⟩
    simp only [List.mem_reverse, List.mem_range'_1] at hn
    omega

/-- Inside a run of characters of the class there is no separator. -/
private theorem inside_run {q : List Int} {a b : Atom} (h1 : ∀ c, a.set c = true → b.set c = false) {x n : Nat} (h : n < runLen a.set (q.drop x)) :
    (Alts.last false (itemSq a b)).picks q (x + n) = [] := by
  rw [List.eq_nil_iff_forall_not_mem]
  intro e he
  obtain ⟨s, w, r, g1, g2, _⟩ := (item_picks q a b _ e).1 he
  have hsep : q[x + n]? = some s := by
    rw [← List.head?_drop, g1]; rfl
  have := h1 s (run_all (S := a.set) (q := q) (s := x) (Nat.le_refl _) (Nat.le_add_right x n) (by omega) hsep)
  rw [g2] at this; cases this

private theorem item_max {q : List Int} {a b : Atom} (h1 : ∀ c, a.set c = true → b.set c = false) (j e0 : Nat) (h : ((Alts.last false (itemSq a b)).picks q j).head? = some e0) :
    j < e0 ∧ ∀ e ∈ (Alts.last false (itemSq a b)).picks q j, e = e0 ∨ (e < e0 ∧ (Alts.last false (itemSq a b)).picks q e = []) := by
  have hp : (Alts.last false (itemSq a b)).picks q j = if 1 ≤ runLen b.set (q.drop j) then ((Quant.plus .greedy).counts (runLen a.set (q.drop (j + 1)))).map (j + 1 + ·) else [] := by
    simp only [Alts.picks, hatPicks, Bool.false_and, Bool.false_eq_true, if_false, itemSq, Sq.picks, counts_once]
    split
    · simp [List.map_eq_flatMap]
    · rfl
  rw [hp] at h ⊢
  split at h
  · rename_i hsep
    rw [if_pos hsep]
    rw [List.head?_map] at h
    cases hc : ((Quant.plus .greedy).counts (runLen a.set (q.drop (j + 1)))).head? with
    | none => rw [hc] at h; simp at h
    | some n0 =>
      rw [hc] at h
      simp only [Option.map_some, Option.some.injEq] at h
      obtain ⟨p1, p2, p3⟩ := plus_first hc
      refine ⟨by omega, fun e he => ?_⟩
      simp only [List.mem_map] at he
      obtain ⟨n, hn, rfl⟩ := he
      have := p3 n hn
      by_cases hnn : n = n0
      · exact Or.inl (by omega)
      · exact Or.inr ⟨by omega, inside_run h1 (by omega)⟩
  · simp at h

/-- The first way is the longest. -/
private theorem list_first {q : List Int} {a : Atom} (hst : a.steady = true) {b : Atom} (h1 : ∀ c, a.set c = true → b.set c = false) {x : Nat} {r0 : Nat × List (Nat × Nat)}
    (h : (caps q (listSq false a b) x).head? = some r0) : ∀ r ∈ caps q (listSq false a b) x, r.1 ≤ r0.1 := by
  have hp : ∀ i, (Sq.nil false).picks q i = [i] := fun i => rfl
  rw [list_caps false hst] at h ⊢
  simp only [hp, List.map_cons, List.map_nil, ← List.map_eq_flatMap] at h ⊢
  cases hc : ((Quant.plus .greedy).counts (runLen a.set (q.drop x))).head? with
  | none => rw [List.head?_eq_none_iff] at hc; rw [hc] at h; simp at h
  | some n0 =>
    obtain ⟨p1, p2, p3⟩ := plus_first hc
    rw [flatMap_head (F := fun n => (manyS (fun j => (Alts.last false (itemSq a b)).picks q j) q.length (x + n, x + n)).map (fun p => (p.2, ([] : List (Nat × Nat))))) hc
      (by simp [manyS_ne]), List.head?_map] at h
    cases hh : (manyS (fun j => (Alts.last false (itemSq a b)).picks q j) q.length (x + n0, x + n0)).head? with
    | none => rw [hh] at h; simp at h
    | some s0 =>
      rw [hh] at h
      simp only [Option.map_some, Option.some.injEq] at h
      subst h
      obtain ⟨i1, i2⟩ := many_first (fun j e0 => item_max h1 j e0) _ _ _ hh
      intro r hr
      simp only [List.mem_flatMap, List.mem_map] at hr
      obtain ⟨n, hn, p, hp, rfl⟩ := hr
      have hle := p3 n hn
      by_cases hnn : n = n0
      · subst hnn; exact i2 p hp
      · have hb : (Alts.last false (itemSq a b)).picks q (x + n) = [] := inside_run h1 (by omega)
        have : p = (x + n, x + n) := by
          revert hp
          generalize q.length = f
          cases f with
          | zero => intro hp; simpa [manyS] using hp
          | succ f => intro hp; simpa [manyS, hb] using hp
        subst this
        simp only at i1 ⊢; omega

/-- **C72.** Searching for lists: matching, `next()` and a range-for with `a+(?:b a+)*` report, from left to right and without overlap, the lists in the query: from where a
match begins, the longest list that begins there; in the text skipped, none begins. -/
theorem C72_search (a b : Atom) (ha : a.ok = true) (hl : a.listing = true) (hb : b.ok = true) (hlb : b.listing = true) (h1 : ∀ c, a.set c = true → b.set c = false)
    (hc : ∀ c ∈ listSpell a b, c ∈ allChars) :
    ∃ g : List Int → Nat → Option (Nat × Caps), FindsGroups (listSpell a b) 0 false g ∧
      ∀ q x, (g q x = none → ∀ e, x ≤ e → e ≤ q.length → ¬ ListText a.set b.set (slice q x e)) ∧
        ∀ w, g q x = some w → x ≤ w.1 ∧ w.1 ≤ q.length ∧ ListText a.set b.set (slice q x w.1) ∧ ∀ e, x ≤ e → e ≤ q.length → ListText a.set b.set (slice q x e) → e ≤ w.1 := by
  have hst := listing_steady hl
  have hr := list_regular ha hl hb hlb h1
  have hsp : (Alts.last false (listSq false a b)).spell = listSpell a b := by simp [Alts.spell, list_spell]
  have ht : Alts.takes (.last false (listSq false a b)) = true := by
    cases a <;> first | (simp [Atom.steady] at hst; done) | simp [listSq, Alts.takes, Alts.list, Sq.takes, Quant.lo]
  have hf := C50_groups_partial (.last false (listSq false a b)) hr (by rw [hsp]; exact hc) ht
  have hcount : (Alts.last false (listSq false a b)).count = 0 := by
    have e := easy ha hst
    simp [listSq, itemSq, Alts.count, Sq.count, Atom.count, e.count, (easy hb (listing_steady hlb)).count]
  have hdol : (Alts.last false (listSq false a b)).dollar = false := rfl
  rw [hsp, hcount, hdol] at hf
  refine ⟨_, hf, fun q x => ?_⟩
  have hmem : ∀ r, r ∈ caps q (listSq false a b) x ↔ ∃ t rest, q.drop x = t ++ rest ∧ ListText a.set b.set t ∧ r = (x + t.length, []) := by
    intro r
    rw [mem_list false hst]
    simp only [Sq.picks, List.mem_singleton]
    constructor
    · rintro ⟨t, rest, g1, g2, g3, g4⟩; exact ⟨t, rest, g1, g2, Prod.ext g4 g3⟩
    · rintro ⟨t, rest, g1, g2, rfl⟩; exact ⟨t, rest, g1, g2, rfl, rfl⟩
  have hin : ∀ e, x ≤ e → e ≤ q.length → ListText a.set b.set (slice q x e) → (e, []) ∈ caps q (listSq false a b) x := by
    intro e g1 g2 g3
    refine (hmem _).2 ⟨slice q x e, (q.drop x).drop (e - x), (List.take_append_drop _ _).symm, g3, ?_⟩
    simp only [slice, List.length_take, List.length_drop]
    rw [show x + min (e - x) (q.length - x) = e by omega]
  have hbest : bestWay (.last false (listSq false a b)) q x = ((caps q (listSq false a b) x).head?).map (fun r => (r.1, fill noCaps 0 r.2)) := by
    rw [bestWay]
    simp only [Alts.ways, Bool.false_and, Bool.false_eq_true, if_false]
    rw [ways_caps _ (list_shallow false hst (listing_steady hlb)), List.head?_map]
  rw [hbest]
  constructor
  · intro hnone e g1 g2 g3
    simp only [Option.map_eq_none_iff, List.head?_eq_none_iff] at hnone
    have := hin e g1 g2 g3
    rw [hnone] at this; simp at this
  · intro w hw
    cases hh : (caps q (listSq false a b) x).head? with
    | none => rw [hh] at hw; simp at hw
    | some r =>
      rw [hh] at hw
      simp only [Option.map_some, Option.some.injEq] at hw
      subst hw
      have hfirst := list_first hst h1 hh
      obtain ⟨t, rest, g1, g2, rfl⟩ := (hmem r).1 (List.mem_of_mem_head? hh)
      have hsl : slice q x (x + t.length) = t := by simp [slice, g1]
      have hlt : 0 < t.length := by
        obtain ⟨w, more, rfl, hw, _⟩ := g2
        have := List.length_pos_iff.2 hw.1
        simp only [List.length_append]; omega
      have hle := congrArg List.length g1
      simp only [List.length_drop, List.length_append] at hle
      refine ⟨by simp, by simp only; omega, by simp only [hsl]; exact g2, fun e g3 g4 g5 => hfirst _ (hin e g3 g4 g5)⟩

/-- **C72 is false of fields that are "anything but the separator"**: `a,b,c` is a list of such fields, and `^[^,]+(?:,[^,]+)*$` rejects it; `a,,c` is not (a field
is empty), and it is accepted. -/
theorem C72_refuted_fields : ListText (Atom.cls true [.chr 44] false).set (Atom.chr 44).set (str "a,b,c") ∧ m "^[^,]+(?:,[^,]+)*$" "a,b,c" = none ∧
    (build (str "^[^,]+(?:,[^,]+)*$")).map (fun b => ends (str "a,,c") (toRx b) 0) = some [] ∧ m "^[^,]+(?:,[^,]+)*$" "a,,c" = some [some "a,,c"] :=
  ⟨⟨str "a", [(44, str "b"), (44, str "c")], by decide, by unfold ItemText; decide, by unfold ItemText; decide⟩, by decide +kernel⟩

/-- **C72 has no counterpart for items with the separator behind each**: the last item of `ab;c` has none, and `^(?:\w+;)+$` accepts it. -/
theorem C72_refuted_terminated : (build (str "^(?:\\w+;)+$")).map (fun b => ends (str "ab;c") (toRx b) 0) = some [] ∧
    m "^(?:\\w+;)+$" "ab;c" = some [some "ab;c"] := by decide +kernel

end ERegex.Props

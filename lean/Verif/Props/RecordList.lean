import Verif.Props.Counted
import Verif.Spec.RecordList
/-!
# C80 : a record and more records
-/
set_option autoImplicit false
namespace ERegex.Props
open ERegex ERegex.Spec
open ERegex.Conformance (lit m)

/-- The pieces, and then `tl`. -/
private def recSq : List Piece → Sq → Sq
  | [], tl => tl
  | p :: ps, tl => .cons p.what p.times (recSq ps tl)

private def bodyG (g : List Piece) : Atom := .group false (.last false (recSq g (.nil false)))
/-- `f(?:g){…}$` -/
private def wholeSq (f g : List Piece) (r : Quant) : Sq := recSq f (.cons (bodyG g) r (.nil true))

/-- `f(?:g){…}` -/
def recordsSpell (f g : List Piece) (r : Quant) : List Int := piecesSpell f ++ [40, 63, 58] ++ piecesSpell g ++ [41] ++ r.spell

/-- What a piece may be: a character, an escape but `\s`, or a class without `\s` that is not negated, with a greedy quantifier other than `?`, outside parentheses. -/
def PlainPiece (p : Piece) : Prop := p.kept = false ∧ p.what.ok = true ∧ p.what.listing = true ∧ Counting p.times
def PlainPieces (ps : List Piece) : Prop := ∀ p ∈ ps, PlainPiece p

private theorem rec_spell : ∀ (ps : List Piece) (tl : Sq), PlainPieces ps → (recSq ps tl).spell = piecesSpell ps ++ tl.spell
  | [], tl, _ => by simp [recSq, piecesSpell]
  | p :: ps, tl, h => by
    have i := rec_spell ps tl (fun q hq => h q (List.mem_cons_of_mem _ hq))
    have hk := (h p (by simp)).1
    simp only [piecesSpell] at i
    simp [recSq, piecesSpell, Sq.spell, i, Piece.spell, hk]

/-- The sizes that occur in the pattern. -/
def piecesSize (ps : List Piece) : Nat := (ps.map (fun p => p.times.lo + 1)).sum

private theorem sane_ok {k : Quant} (h : k.sane = true) : k.ok = true := by
  simp only [Quant.sane, Bool.and_eq_true] at h
  exact h.1

private structure Fine (ps : List Piece) (tl : Sq) : Prop where
  ok : (recSq ps tl).ok = true
  plainly : (recSq ps tl).plainly = true
  hatless : (recSq ps tl).hatless = true
  mute : (recSq ps tl).mute = true
  count : (recSq ps tl).count = 0
  lined : ∀ g n, (recSq ps tl).lined g n = true
  bulk : (recSq ps tl).bulk = piecesSize ps + tl.bulk
  within : (recSq ps tl).within (fun _ => true) = true
  slips : (recSq ps tl).slips (fun _ => true) = true
  hard : (recSq ps tl).hard (fun _ => false) = true

private theorem piece_hard {a : Atom} {k : Quant} {s : Sq} (hk : Counting k) (h1 : a.hard (fun _ => false) = true) (h2 : a.isCap = false)
    (h3 : s = .nil false ∨ (s.empty = false ∧ s.slips (fun _ => true) = true)) (h4 : a.slips (fun _ => false) = true) (h6 : s.hard (fun _ => false) = true) :
    (Sq.cons a k s).hard (fun _ => false) = true := by
  obtain ⟨_, h7, h8⟩ := hk
  have none : ∀ f : Int → Bool, (meets f fun x => (Sq.nil false).firsts x || false) = false := fun f => not_meets (fun x _ h => by simp [Sq.firsts] at h)
  rcases h3 with rfl | ⟨h3, h5⟩
  · cases k <;> (simp only [Quant.mode] at h7; try subst h7) <;> simp only [Sq.hard, h1, h2, Quant.mode, none] <;> simp
  · cases k <;> (simp only [Quant.mode] at h7; try subst h7) <;> simp only [Sq.hard, h1, h2, h3, h4, h5, h6, Quant.mode] <;>
      first | (simp; done) | (simp [Quant.lo, Quant.hi] at h8 ⊢; done) | (simp [Quant.lo, Quant.hi] at h8 ⊢; refine Or.inr ?_; rcases Int.lt_or_le 0 (decimal _) with h9 | h9; exact Or.inl h9; exact Or.inr (h8 h9))

private theorem fine {tl : Sq} (t1 : tl.ok = true) (t2 : tl.plainly = true) (t3 : tl.hatless = true) (t4 : tl.mute = true) (t5 : tl.count = 0) (t6 : ∀ g n, tl.lined g n = true)
    (t7 : tl.within (fun _ => true) = true) (t8 : tl.slips (fun _ => true) = true) (t9 : tl.hard (fun _ => false) = true) (t10 : tl = .nil false ∨ tl.empty = false) :
    ∀ (ps : List Piece), PlainPieces ps → Fine ps tl
  | [], _ => ⟨t1, t2, t3, t4, t5, t6, by simp [recSq, piecesSize], t7, t8, t9⟩
  | p :: ps, h => by
    obtain ⟨_, ha, hl, hk⟩ := h p (by simp)
    have hst := listing_steady hl
    have e := easy ha hst
    have i := fine t1 t2 t3 t4 t5 t6 t7 t8 t9 t10 ps (fun c hc => h c (List.mem_cons_of_mem _ hc))
    constructor
    · simp [recSq, Sq.ok, ha, sane_ok hk.1, i.ok]
    · simp [recSq, Sq.plainly, e.plainly, e.feeds, e.mute, hk.1, i.plainly]
    · simp [recSq, Sq.hatless, e.hatless, i.hatless]
    · simp [recSq, Sq.mute, e.count, i.mute]
    · simp [recSq, Sq.count, e.count, i.count]
    · simp [recSq, Sq.lined, e.lined, i.lined]
    · simp [recSq, Sq.bulk, e.bulk, i.bulk, piecesSize]; omega
    · simp [recSq, Sq.within, e.within, i.within]
    · simp [recSq, Sq.slips, e.slips, e.within, i.slips]
    · refine piece_hard hk (e.hard _) e.isCap ?_ (e.slips _) i.hard
      cases ps with
      | nil =>
        rcases t10 with t | t
        · exact Or.inl t
        · exact Or.inr ⟨t, t8⟩
      | cons p' ps => exact Or.inr ⟨rfl, i.slips⟩

private theorem piece_commits {a : Atom} {k : Quant} {s : Sq} {L : Int → Bool} {tot : Bool} (ht : (tot && s.empties) = false) (hk : Counting k) (hf : a.feeds = true)
    (hm : k.fixed = true ∨ meets a.heads (s.upcoming L) = false)
    (h1 : a.commits false (s.upcoming L) = true) (h2 : a.commits false (fun x => a.heads x || s.upcoming L x) = true) (hs : s.commits tot L = true) :
    (Sq.cons a k s).commits tot L = true := by
  obtain ⟨h3, h4, _⟩ := hk
  rcases hm with hm | hm
  · cases k <;> first | (simp [Quant.fixed] at hm; done) | (simp only [Quant.mode] at h4; try subst h4); simp [Sq.commits, ht, hf, h1, h2, h3, hs, decides, Quant.mode, Quant.fixed]
  · cases k <;> (simp only [Quant.mode] at h4; try subst h4) <;> simp [Sq.commits, ht, hf, h1, h2, h3, hs, decides, Quant.mode, hm]

private theorem rec_upcoming {tl : Sq} {L : Int → Bool} : ∀ (ps : List Piece), PlainPieces ps → ∀ x, (recSq ps tl).upcoming L x = upcomingChars ps (tl.upcoming L) x
  | [], _, x => rfl
  | p :: ps, h, x => by
    obtain ⟨_, ha, hl, hk⟩ := h p (by simp)
    have e := easy ha (listing_steady hl)
    have i := rec_upcoming (tl := tl) (L := L) ps (fun c hc => h c (List.mem_cons_of_mem _ hc)) x
    simp only [upcomingChars, ← i, recSq, Sq.upcoming, Sq.heads, Sq.empties, e.heads, e.empties, Bool.or_false]
    cases p.what.set x <;> cases (p.times.lo == 0) <;> simp

private theorem rec_empties {tl : Sq} {tot : Bool} (h : (tot && tl.empties) = false) : ∀ (ps : List Piece), (tot && (recSq ps tl).empties) = false
  | [] => h
  | p :: ps => by
    have i := rec_empties h ps
    revert i
    simp only [recSq, Sq.empties]
    cases tot <;> simp
    intro i _; exact i

private theorem rec_commits {tl : Sq} {tot : Bool} {L : Int → Bool} (h1 : (tot && tl.empties) = false) (h2 : tl.commits tot L = true) : ∀ (ps : List Piece), PlainPieces ps →
    Parted ps (tl.upcoming L) → (recSq ps tl).commits tot L = true
  | [], _, _ => h2
  | p :: ps, h, hp => by
    obtain ⟨_, ha, hl, hk⟩ := h p (by simp)
    have hps : PlainPieces ps := fun c hc => h c (List.mem_cons_of_mem _ hc)
    have e := easy ha (listing_steady hl)
    refine piece_commits (rec_empties h1 ps) hk e.feeds ?_ (e.commits _ _) (e.commits _ _) (rec_commits h1 h2 ps hps hp.2)
    rcases hp.1 with hf | hd
    · exact Or.inl hf
    · refine Or.inr (not_meets (fun x g1 g2 => ?_))
      rw [e.heads] at g1
      rw [rec_upcoming ps hps, hd x g1] at g2; cases g2

private theorem upcoming_mono {L L' : Int → Bool} (h : ∀ x, L' x = true → L x = true) : ∀ (ps : List Piece) (x : Int), upcomingChars ps L' x = true → upcomingChars ps L x = true
  | [], x, hx => h x hx
  | p :: ps, x, hx => by
    simp only [upcomingChars, Bool.or_eq_true, Bool.and_eq_true] at hx ⊢
    rcases hx with hx | ⟨h1, h2⟩
    · exact Or.inl hx
    · exact Or.inr ⟨h1, upcoming_mono h ps x h2⟩

private theorem parted_mono {L L' : Int → Bool} (h : ∀ x, L' x = true → L x = true) : ∀ (ps : List Piece), Parted ps L → Parted ps L'
  | [], _ => trivial
  | p :: ps, hp => by
    refine ⟨hp.1.imp id (fun hd c hc => ?_), parted_mono h ps hp.2⟩
    cases hu : upcomingChars ps L' c with
    | false => rfl
    | true => have := upcoming_mono h ps c hu; rw [hd c hc] at this; cases this

private theorem rec_feeds {tl : Sq} : ∀ (ps : List Piece), PlainPieces ps → ((∃ p ∈ ps, p.times.lo ≠ 0) ∨ tl.feeds = true) → (recSq ps tl).feeds = true
  | [], _, h => by
    rcases h with ⟨p, hp, _⟩ | h
    · simp at hp
    · exact h
  | p :: ps, hp, h => by
    obtain ⟨_, ha, hl, hk⟩ := hp p (by simp)
    have e := easy ha (listing_steady hl)
    have i := rec_feeds (tl := tl) ps (fun c hc => hp c (List.mem_cons_of_mem _ hc))
    simp only [recSq, Sq.feeds, e.feeds, Bool.and_true, Bool.or_eq_true]
    rcases h with ⟨p', h1, h2⟩ | h
    · rcases List.mem_cons.1 h1 with rfl | h1
      · exact Or.inl (by simpa using h2)
      · exact Or.inr (i (Or.inl ⟨p', h1, h2⟩))
    · exact Or.inr (i (Or.inr h))

/-- `b`, once. -/
def onceOf (b : Atom) : Piece := ⟨false, b, .once⟩

private theorem one_plain {b : Atom} (hb : b.ok = true) (hl : b.listing = true) : PlainPiece (onceOf b) := ⟨rfl, hb, hl, rfl, rfl, by simp [onceOf, Quant.lo]⟩

private theorem whole_committed {f g : List Piece} {b : Atom} {r : Quant} (hf : PlainPieces f) (hfe : f ≠ []) (hb : b.ok = true) (hlb : b.listing = true) (hg : PlainPieces g) (hr : Counting r)
    (hne : (∃ p ∈ f, p.times.lo ≠ 0) ∨ r.lo ≠ 0) (h1 : Parted f (fun c => b.set c || c == 10)) (h2 : Parted g (fun c => b.set c || c == 10)) (h3 : b.set 10 = false)
    (hn : piecesSize f + (2 + piecesSize g) * (r.lo + 1) < 4294967296) : (Alts.last true (wholeSq f (onceOf b :: g) r)).committed = true := by
  have hstb := listing_steady hlb
  have eb := easy hb hstb
  have o1 : Quant.once.ok = true := rfl
  have o2 : Quant.once.sane = true := rfl
  have o3 : Quant.once.lo = 1 := rfl
  have hg' : PlainPieces (onceOf b :: g) := fun p hp => by
    rcases List.mem_cons.1 hp with rfl | hp
    · exact one_plain hb hlb
    · exact hg p hp
  have i := fine (tl := .nil false) rfl rfl rfl rfl rfl (fun _ _ => rfl) rfl rfl rfl (Or.inl rfl) (onceOf b :: g) hg'
  have gf : (bodyG (onceOf b :: g)).feeds = true := by simp [bodyG, recSq, onceOf, Atom.feeds, Alts.feeds, Sq.feeds, o3, eb.feeds]
  have gh : (bodyG (onceOf b :: g)).heads = b.set := by
    funext x; simp [bodyG, recSq, onceOf, Atom.heads, Alts.heads, Sq.heads, o3, eb.heads, eb.empties]
  have ge : (bodyG (onceOf b :: g)).empties = false := by simp [bodyG, recSq, onceOf, Atom.empties, Alts.empties, Sq.empties, o3, eb.empties]
  have gs : ∀ S, (bodyG (onceOf b :: g)).slips S = true := by
    intro S; simp [bodyG, recSq, onceOf, Atom.slips, Alts.slips, Sq.slips, eb.slips, o3, Quant.isOnce, eb.isCap]
  have gw : (bodyG (onceOf b :: g)).within (fun _ => true) = true := by simp only [bodyG, Atom.within, Alts.within, i.within]
  have gd : (bodyG (onceOf b :: g)).hard (fun _ => false) = true := by
    simp only [bodyG, Atom.hard, Alts.hard, Bool.false_eq_true, if_false, i.hard]
  have gp : (bodyG (onceOf b :: g)).plainly = true := by
    simp only [bodyG, Atom.plainly, Alts.plainly, Alts.hatless, i.plainly, i.hatless]
    simp [recSq, Sq.empty]
  have gm : (bodyG (onceOf b :: g)).mute = true := by simp only [bodyG, Atom.mute, Alts.mute, i.mute]
  have gc : (bodyG (onceOf b :: g)).count = 0 := by simp [bodyG, Atom.count, Alts.count, i.count]
  have gt : (bodyG (onceOf b :: g)).hatless = true := by simp [bodyG, Atom.hatless, Alts.hatless, i.hatless]
  have gl : ∀ x n, (bodyG (onceOf b :: g)).lined x n = true := by intro x n; simp [bodyG, Atom.lined, Alts.lined, i.lined]
  have go : (bodyG (onceOf b :: g)).ok = true := by
    simp only [bodyG, Atom.ok, Alts.ok, i.ok]
    simp [recSq, Sq.empty]
  have gi : (bodyG (onceOf b :: g)).isCap = false := rfl
  have j := fine (tl := .cons (bodyG (onceOf b :: g)) r (.nil true)) (by simp [Sq.ok, go, sane_ok hr.1]) (by simp [Sq.plainly, gp, hr.1, gf, gm]) (by simp [Sq.hatless, gt])
    (by simp [Sq.mute, gc]) (by simp [Sq.count, gc]) (by simp [Sq.lined, gl]) (by simp [Sq.within, gw]) (by simp [Sq.slips, gs, gw])
    (piece_hard hr gd gi (Or.inr ⟨rfl, rfl⟩) (gs _) rfl) (Or.inr rfl) f hf
  have hemp : (wholeSq f (onceOf b :: g) r).empty = false := by
    cases f with
    | nil => exact absurd rfl hfe
    | cons p f => rfl
  simp only [Alts.committed, Bool.and_eq_true]
  refine ⟨⟨⟨⟨⟨⟨?_, ?_⟩, ?_⟩, ?_⟩, ?_⟩, ?_⟩, ?_⟩
  · have := j.ok
    simp [Alts.ok, wholeSq, this]
  · have hfeeds : (wholeSq f (onceOf b :: g) r).feeds = true := by
      refine rec_feeds f hf (hne.imp id (fun h => ?_))
      simp [Sq.feeds, gf, h]
    have hpl : (wholeSq f (onceOf b :: g) r).plainly = true := j.plainly
    have hhat : (wholeSq f (onceOf b :: g) r).hatless = true := j.hatless
    simp only [Alts.plainly, hfeeds, hpl, hhat, hemp]
    rfl
  · have := j.lined
    simp [Alts.aligned, wholeSq, this]
  · have hhat : (wholeSq f (onceOf b :: g) r).hatless = true := j.hatless
    have hc : ∀ L : Int → Bool, (∀ x, L x = true → b.set x = true ∨ x = 10) → (bodyG (onceOf b :: g)).commits false L = true := by
      intro L hL
      have hu : ∀ x, (Sq.nil false).upcoming L x = true → (b.set x || x == 10) = true := fun x hx => by
        simp [Sq.upcoming, Sq.heads, Sq.empties] at hx
        simpa using hL x hx
      have := rec_commits (tl := .nil false) (tot := false) (L := L) rfl rfl (onceOf b :: g) hg' ⟨Or.inl rfl, parted_mono hu g h2⟩
      simp only [bodyG, Atom.commits, Alts.commits, Alts.hatless, this, i.hatless]; rfl
    have inner : (Sq.cons (bodyG (onceOf b :: g)) r (.nil true)).commits true (fun _ => false) = true := by
      refine piece_commits rfl hr gf (Or.inr (not_meets (fun x h4 h5 => ?_))) (hc _ (fun x h4 => ?_)) (hc _ (fun x h4 => ?_)) rfl
      · rw [gh] at h4
        simp [Sq.upcoming, Sq.heads, Sq.empties] at h5
        subst h5; rw [h3] at h4; cases h4
      · simp [Sq.upcoming, Sq.heads, Sq.empties] at h4; exact Or.inr h4
      · simpa [Sq.upcoming, Sq.heads, Sq.empties, gh] using h4
    simp only [Alts.commits, hhat, Bool.true_and]
    refine rec_commits (by simp [Sq.empties]) inner f hf (parted_mono (fun x hx => ?_) f h1)
    simp [Sq.upcoming, Sq.heads, Sq.empties, gh, ge] at hx
    simp only [Bool.or_eq_true, beq_iff_eq]
    exact hx.imp id (fun h => h.2)
  · simp [Alts.atFront]
  · simp only [Alts.hard, if_true]; exact j.hard
  · have e1 : (wholeSq f (onceOf b :: g) r).bulk = piecesSize f + (2 + piecesSize g) * (r.lo + 1) := by
      have e2 : (bodyG (onceOf b :: g)).bulk = 2 + piecesSize g := by
        simp only [bodyG, Atom.bulk, Alts.bulk, i.bulk]
        simp [piecesSize, onceOf, o3, Sq.bulk]
      rw [wholeSq, j.bulk]
      simp [Sq.bulk, e2]
    simp only [Alts.bulk, e1, decide_eq_true_eq]
    exact hn

/-! ## the matches -/

private theorem some_counts {S : Int → Bool} {k : Quant} (hk : Counting k) {l : List Int} {n : Nat} : n ∈ k.counts (runLen S l) ↔
    ∃ w r, l = w ++ r ∧ w.length = n ∧ k.lo ≤ w.length ∧ (∀ h, k.hi = some h → w.length ≤ h) ∧ ∀ c ∈ w, S c = true := by
  rw [mem_greedy _ _ _ (by rw [hk.2.1]; simp), le_run, Allowed]
  constructor
  · rintro ⟨h1, w, r, h3, rfl, h4⟩
    exact ⟨w, r, h3, rfl, h1.1, h1.2, h4⟩
  · rintro ⟨w, r, h3, rfl, h1, h2, h4⟩
    exact ⟨⟨h1, h2⟩, w, r, h3, rfl, h4⟩

private theorem rec_picks (q : List Int) : ∀ (ps : List Piece), PlainPieces ps → ∀ (j e : Nat), e ∈ (recSq ps (.nil false)).picks q j ↔
    ∃ w r, q.drop j = w ++ r ∧ RecordText ps w ∧ e = j + w.length
  | [], _, j, e => by
    simp only [recSq, Sq.picks, RecordText, AllFit]
    constructor
    · intro h
      have h : e = j := by simpa using h
      exact ⟨[], q.drop j, rfl, ⟨[], rfl, rfl⟩, by simpa using h⟩
    · rintro ⟨w, r, _, ⟨ws, rfl, rfl⟩, rfl⟩
      simp
  | p :: ps, h, j, e => by
    have hk := (h p (by simp)).2.2.2
    have i := rec_picks q ps (fun c hc => h c (List.mem_cons_of_mem _ hc))
    simp only [recSq, Sq.picks, List.mem_flatMap, some_counts hk, i]
    constructor
    · rintro ⟨_, ⟨w, r, h1, rfl, h2⟩, w', r', g1, ⟨ws, g2, rfl⟩, rfl⟩
      rw [← List.drop_drop, h1, List.drop_left] at g1
      exact ⟨w ++ ws.flatten, r', by rw [h1, g1, List.append_assoc], ⟨w :: ws, ⟨w, ws, rfl, h2, g2⟩, by simp⟩, by simp; omega⟩
    · rintro ⟨_, r, h1, ⟨_, ⟨w, ws, rfl, h2, g2⟩, rfl⟩, rfl⟩
      rw [List.flatten_cons, List.append_assoc] at h1
      exact ⟨w.length, ⟨w, _, h1, rfl, h2⟩, ws.flatten, r, by rw [← List.drop_drop, h1, List.drop_left], ⟨ws, g2, rfl⟩, by simp; omega⟩

private theorem rec_caps (q : List Int) (tl : Sq) : ∀ (ps : List Piece), PlainPieces ps → ∀ (j : Nat) (v : Nat × List (Nat × Nat)), v ∈ caps q (recSq ps tl) j ↔
    ∃ w r, q.drop j = w ++ r ∧ RecordText ps w ∧ v ∈ caps q tl (j + w.length)
  | [], _, j, v => by
    simp only [recSq, RecordText, AllFit]
    constructor
    · intro h
      exact ⟨[], q.drop j, rfl, ⟨[], rfl, rfl⟩, h⟩
    · rintro ⟨w, r, _, ⟨ws, rfl, rfl⟩, h⟩
      exact h
  | p :: ps, h, j, v => by
    have hk := (h p (by simp)).2.2.2
    have i := rec_caps q tl ps (fun c hc => h c (List.mem_cons_of_mem _ hc))
    have hg := not_group (a := p.what) (by simp [listing_steady (h p (by simp)).2.2.1])
    have e : caps q (recSq (p :: ps) tl) j = (p.times.counts (runLen p.what.set (q.drop j))).flatMap (fun n => caps q (recSq ps tl) (j + n)) := by
      rw [recSq]
      cases hw : p.what <;> first | exact absurd hw (hg _ _) | rfl
    simp only [e, List.mem_flatMap, some_counts hk, i]
    constructor
    · rintro ⟨_, ⟨w, r, h1, rfl, h2⟩, w', r', g1, ⟨ws, g2, rfl⟩, hv⟩
      rw [← List.drop_drop, h1, List.drop_left] at g1
      exact ⟨w ++ ws.flatten, r', by rw [h1, g1, List.append_assoc], ⟨w :: ws, ⟨w, ws, rfl, h2, g2⟩, by simp⟩, by rw [List.length_append, ← Nat.add_assoc]; exact hv⟩
    · rintro ⟨_, r, h1, ⟨_, ⟨w, ws, rfl, h2, g2⟩, rfl⟩, hv⟩
      rw [List.flatten_cons, List.append_assoc] at h1
      exact ⟨w.length, ⟨w, _, h1, rfl, h2⟩, ws.flatten, r, by rw [← List.drop_drop, h1, List.drop_left], ⟨ws, g2, rfl⟩, by
        rw [List.flatten_cons, List.length_append, ← Nat.add_assoc] at hv; exact hv⟩



/-- What one repetition of the group takes. -/
private structure Body (q : List Int) (P : List Int → Prop) (body : Nat → List Nat) : Prop where
  iff : ∀ j e, e ∈ body j ↔ ∃ w r, q.drop j = w ++ r ∧ P w ∧ e = j + w.length
  eats : ∀ w, P w → w ≠ []

private theorem must_items {q : List Int} {P : List Int → Prop} {body : Nat → List Nat} (hb : Body q P body) :
    ∀ (n : Nat) (p : Nat × Nat) (x : Nat), (∃ r ∈ mustS body n p, r.2 = x) ↔
      ∃ (more : List (List Int)) (rest : List Int), more.length = n ∧ (∀ w ∈ more, P w) ∧ q.drop p.2 = more.flatten ++ rest ∧ x = p.2 + more.flatten.length
  | 0, p, x => by
    simp only [mustS, List.mem_singleton]
    constructor
    · rintro ⟨r, rfl, rfl⟩
      exact ⟨[], q.drop r.2, rfl, by simp, by simp, by simp⟩
    · rintro ⟨more, rest, h1, _, _, rfl⟩
      rw [List.length_eq_zero_iff] at h1
      subst h1
      exact ⟨p, rfl, by simp⟩
  | n + 1, p, x => by
    simp only [mustS, List.mem_flatMap]
    constructor
    · rintro ⟨r, ⟨e, he, hr⟩, rfl⟩
      obtain ⟨w, l, h1, h2, rfl⟩ := (hb.iff p.2 e).1 he
      obtain ⟨more, rest, g1, g2, g3, g4⟩ := (must_items hb n _ _).1 ⟨r, hr, rfl⟩
      simp only at g3 g4
      have hd : q.drop (p.2 + w.length) = l := by rw [← List.drop_drop, h1]; simp
      refine ⟨w :: more, rest, by simp [g1], ?_, ?_, ?_⟩
      · intro v hv
        rcases List.mem_cons.1 hv with rfl | hv
        · exact h2
        · exact g2 v hv
      · rw [h1, ← hd, g3, List.flatten_cons]; simp
      · rw [g4, List.flatten_cons, List.length_append]; omega
    · rintro ⟨more, rest, h1, h2, h3, rfl⟩
      match more, h1 with
      | w :: more, h1 =>
        have hw := h2 w (by simp)
        rw [List.flatten_cons, List.append_assoc] at h3
        have hin := (hb.iff p.2 _).2 ⟨w, more.flatten ++ rest, h3, hw, rfl⟩
        have hd : q.drop (p.2 + w.length) = more.flatten ++ rest := by rw [← List.drop_drop, h3]; simp
        obtain ⟨r, hr, g⟩ := (must_items hb n (p.2, p.2 + w.length) _).2 ⟨more, rest, by simpa using h1, fun v hv => h2 v (List.mem_cons_of_mem _ hv), hd, rfl⟩
        refine ⟨r, ⟨_, hin, hr⟩, ?_⟩
        rw [g, List.flatten_cons, List.length_append]; simp only; omega

private theorem many_items {q : List Int} {P : List Int → Prop} {body : Nat → List Nat} (hb : Body q P body) :
    ∀ (f : Nat) (p : Nat × Nat) (x : Nat), (∃ r ∈ manyS body f p, r.2 = x) ↔
      ∃ (more : List (List Int)) (rest : List Int), more.length ≤ f ∧ (∀ w ∈ more, P w) ∧ q.drop p.2 = more.flatten ++ rest ∧ x = p.2 + more.flatten.length
  | 0, p, x => by
    simp only [manyS, List.mem_singleton]
    constructor
    · rintro ⟨r, rfl, rfl⟩
      exact ⟨[], q.drop r.2, by simp, by simp, by simp, by simp⟩
    · rintro ⟨more, rest, h1, _, _, rfl⟩
      have h1 : more = [] := List.length_eq_zero_iff.1 (by omega)
      subst h1
      exact ⟨p, rfl, by simp⟩
  | n + 1, p, x => by
    simp only [manyS, List.mem_append, List.mem_flatMap, List.mem_singleton]
    constructor
    · rintro ⟨r, ⟨e, he, hr⟩ | rfl, rfl⟩
      · obtain ⟨w, l, h1, h2, rfl⟩ := (hb.iff p.2 e).1 he
        obtain ⟨more, rest, g1, g2, g3, g4⟩ := (many_items hb n _ _).1 ⟨r, hr, rfl⟩
        simp only at g3 g4
        have hd : q.drop (p.2 + w.length) = l := by rw [← List.drop_drop, h1]; simp
        refine ⟨w :: more, rest, by simp [g1], ?_, ?_, ?_⟩
        · intro v hv
          rcases List.mem_cons.1 hv with rfl | hv
          · exact h2
          · exact g2 v hv
        · rw [h1, ← hd, g3, List.flatten_cons]; simp
        · rw [g4, List.flatten_cons, List.length_append]; omega
      · exact ⟨[], q.drop r.2, by simp, by simp, by simp, by simp⟩
    · rintro ⟨more, rest, h1, h2, h3, rfl⟩
      match more, h1 with
      | [], _ => exact ⟨p, Or.inr rfl, by simp⟩
      | w :: more, h1 =>
        have hw := h2 w (by simp)
        rw [List.flatten_cons, List.append_assoc] at h3
        have hin := (hb.iff p.2 _).2 ⟨w, more.flatten ++ rest, h3, hw, rfl⟩
        have hd : q.drop (p.2 + w.length) = more.flatten ++ rest := by rw [← List.drop_drop, h3]; simp
        obtain ⟨r, hr, g⟩ := (many_items hb n (p.2, p.2 + w.length) _).2 ⟨more, rest, by simpa using h1, fun v hv => h2 v (List.mem_cons_of_mem _ hv), hd, rfl⟩
        refine ⟨r, Or.inl ⟨_, hin, hr⟩, ?_⟩
        rw [g, List.flatten_cons, List.length_append]; simp only; omega

/-- Where the repeated group can end. -/
private theorem span_items {q : List Int} {P : List Int → Prop} {body : Nat → List Nat} (hb : Body q P body)
    {k : Quant} (hk : Counting k) (j x : Nat) : (∃ r ∈ spans q.length k body j, r.2 = x) ↔
      ∃ (more : List (List Int)) (rest : List Int), InBounds k.lo k.hi more.length ∧ (∀ w ∈ more, P w) ∧ q.drop j = more.flatten ++ rest ∧ x = j + more.flatten.length := by
  have hsp : spans q.length k body j = (mustS body k.lo (j, j)).flatMap (manyS body (k.extra q.length)) := by simp only [spans, hk.2.1]
  rw [hsp]
  simp only [List.mem_flatMap]
  constructor
  · rintro ⟨r, ⟨p, hp, hr⟩, rfl⟩
    obtain ⟨m1, rest1, g1, g2, g3, g4⟩ := (must_items hb _ _ _).1 ⟨p, hp, rfl⟩
    obtain ⟨m2, rest2, f1, f2, f3, f4⟩ := (many_items hb _ _ _).1 ⟨r, hr, rfl⟩
    simp only at g3 g4
    refine ⟨m1 ++ m2, rest2, ⟨by simp; omega, fun h hh => ?_⟩, ?_, ?_, ?_⟩
    · simp only [Quant.extra, hh] at f1
      have hs := hk.1
      simp only [Quant.sane, hh, Bool.and_eq_true, decide_eq_true_eq] at hs
      simp only [List.length_append]; omega
    · intro v hv
      rcases List.mem_append.1 hv with hv | hv
      · exact g2 v hv
      · exact f2 v hv
    · rw [g4, ← List.drop_drop, g3, List.drop_left] at f3
      rw [g3, f3, List.flatten_append, List.append_assoc]
    · rw [f4, g4, List.flatten_append, List.length_append]; omega
  · rintro ⟨more, rest, ⟨h1, h2⟩, h3, h4, rfl⟩
    have hlen : ∀ more : List (List Int), (∀ w ∈ more, P w) → more.length ≤ more.flatten.length := by
      intro more
      induction more with
      | nil => simp
      | cons w more ih =>
        intro hi
        have h1 := ih (fun v hv => hi v (List.mem_cons_of_mem _ hv))
        have h2 := List.length_pos_iff.2 (hb.eats w (hi w (by simp)))
        rw [List.flatten_cons, List.length_append, List.length_cons]; omega
    have e : more.flatten = (more.take k.lo).flatten ++ (more.drop k.lo).flatten := by rw [← List.flatten_append, List.take_append_drop]
    have hq := congrArg List.length h4
    simp only [List.length_drop, List.length_append] at hq
    rw [e, List.append_assoc] at h4
    obtain ⟨p, hp, hp2⟩ := (must_items hb k.lo (j, j) _).2 ⟨more.take k.lo, (more.drop k.lo).flatten ++ rest, by simp; omega, fun v hv => h3 v (List.mem_of_mem_take hv), h4, rfl⟩
    simp only at hp2
    obtain ⟨r, hr, hr2⟩ := (many_items hb (k.extra q.length) p _).2 ⟨more.drop k.lo, rest, by
      simp only [Quant.extra, List.length_drop]
      split
      · have := hlen more h3; omega
      · rename_i h hh
        have := h2 h hh; omega, fun v hv => h3 v (List.mem_of_mem_drop hv), by rw [hp2, ← List.drop_drop, h4, List.drop_left], rfl⟩
    refine ⟨r, ⟨p, hp, hr⟩, ?_⟩
    rw [hr2, hp2, e, List.length_append]; omega

private theorem one_eats {b : Atom} {g : List Piece} {w : List Int} (h : RecordText (onceOf b :: g) w) : w ≠ [] := by
  obtain ⟨_, ⟨v, ws, rfl, ⟨h1, _⟩, _⟩, rfl⟩ := h
  have h1 : 1 ≤ v.length := h1
  intro h
  have := congrArg List.length h
  rw [List.flatten_cons, List.length_append, List.length_nil] at this
  omega

private theorem rec_body (q : List Int) {b : Atom} {g : List Piece} (hg : PlainPieces (onceOf b :: g)) :
    Body q (RecordText (onceOf b :: g)) ((Alts.last false (recSq (onceOf b :: g) (.nil false))).picks q) := by
  refine ⟨fun j e => ?_, fun w h => one_eats h⟩
  rw [← rec_picks q _ hg]
  simp [Alts.picks, hatPicks]

/-- The ends of the records, and what may come behind them. -/
private theorem mem_whole {f g : List Piece} {b : Atom} {r : Quant} (hf : PlainPieces f) (hg : PlainPieces (onceOf b :: g)) (hr : Counting r) (q : List Int)
    (v : Nat × List (Nat × Nat)) : v ∈ caps q (wholeSq f (onceOf b :: g) r) 0 ↔
      ∃ t rest, q = t ++ rest ∧ RecordsText f (onceOf b :: g) r.lo r.hi t ∧ v.2 = [] ∧ v.1 ∈ (Sq.nil true).picks q t.length := by
  rw [wholeSq, rec_caps q _ f hf]
  simp only [bodyG, caps, List.drop_zero, Nat.zero_add, List.mem_flatMap, List.mem_map]
  constructor
  · rintro ⟨w, l, h1, h2, p, hp, u, ⟨x, hx, rfl⟩, rfl⟩
    obtain ⟨more, rest, g1, g2, g3, g4⟩ := (span_items (rec_body q hg) hr w.length p.2).1 ⟨p, hp, rfl⟩
    have hl : l = more.flatten ++ rest := by
      rw [← g3]; simp [h1]
    refine ⟨w ++ more.flatten, rest, by rw [h1, hl, List.append_assoc], ⟨w, more, rfl, h2, g1, g2⟩, by simp, ?_⟩
    rw [List.length_append, ← g4]; exact hx
  · rintro ⟨t, rest, h1, ⟨w, more, rfl, h2, h3, h4⟩, h5, h6⟩
    have h1' : q = w ++ (more.flatten ++ rest) := by rw [h1, List.append_assoc]
    obtain ⟨p, hp, hp2⟩ := (span_items (rec_body q hg) hr w.length (w.length + more.flatten.length)).2 ⟨more, rest, h3, h4, by rw [h1']; simp, rfl⟩
    refine ⟨w, _, h1', h2, p, hp, (v.1, []), ⟨v.1, ?_, rfl⟩, ?_⟩
    · rw [hp2]; rw [List.length_append] at h6; exact h6
    · simp only [Bool.false_eq_true, if_false]
      exact Prod.ext rfl h5.symm

private theorem rec_flat : ∀ (ps : List Piece), PlainPieces ps → flat (recSq ps (.nil false)) = true
  | [], _ => rfl
  | p :: ps, h => by
    obtain ⟨_, ha, hl, hk⟩ := h p (by simp)
    have i := rec_flat ps (fun c hc => h c (List.mem_cons_of_mem _ hc))
    simp [recSq, flat, listing_steady hl, hk.1, i]

private theorem rec_shallow {tl : Sq} (h : shallow tl = true) : ∀ (ps : List Piece), PlainPieces ps → shallow (recSq ps tl) = true
  | [], _ => h
  | p :: ps, hp => by
    obtain ⟨_, ha, hl, hk⟩ := hp p (by simp)
    have i := rec_shallow h ps (fun c hc => hp c (List.mem_cons_of_mem _ hc))
    have hst := listing_steady hl
    have hg := not_group (a := p.what) (by simp [hst])
    have h4 : shallow (recSq (p :: ps) tl) = ((p.what.steady || p.what.skips) && p.times.sane && shallow (recSq ps tl)) := by
      rw [recSq]
      cases hq : p.what <;> first | exact absurd hq (hg _ _) | rfl
    rw [h4, i, hst, hk.1]; rfl

private theorem whole_shallow {f g : List Piece} {b : Atom} {r : Quant} (hf : PlainPieces f) (hg : PlainPieces (onceOf b :: g)) (hr : Counting r) :
    shallow (wholeSq f (onceOf b :: g) r) = true := by
  have h1 := rec_flat _ hg
  have o3 : Quant.once.lo = 1 := rfl
  have he : (recSq (onceOf b :: g) (.nil false)).eats = true := by simp [recSq, onceOf, Sq.eats, o3]
  have h2 : repShallow false (.last false (recSq (onceOf b :: g) (.nil false))) r = true := by
    simp [repShallow, flats, h1, Alts.list, hr.2.1, he]
  refine rec_shallow ?_ f hf
  unfold bodyG
  cases r <;> first | (simp [shallow, h2]; done) | simp [shallow, flats, h1, Alts.list]

private theorem fits_line : ∀ (ps : List Piece) (ws : List (List Int)), (∀ p ∈ ps, p.what.set 10 = false) → AllFit ps ws → ∀ c ∈ ws.flatten, c ≠ (10 : Int)
  | [], ws, _, h, c, hc => by
    rw [AllFit] at h; subst h; simp at hc
  | p :: ps, _, hn, ⟨w, ws, rfl, h1, h2⟩, c, hc => by
    rw [List.flatten_cons, List.mem_append] at hc
    rcases hc with hc | hc
    · rintro rfl
      have := h1.2.2 _ hc
      rw [hn p (by simp)] at this; cases this
    · exact fits_line ps ws (fun p' hp => hn p' (List.mem_cons_of_mem _ hp)) h2 c hc

private theorem no_line {f g : List Piece} {lo : Nat} {hi : Option Nat} {t : List Int} (hf : ∀ p ∈ f, p.what.set 10 = false) (hg : ∀ p ∈ g, p.what.set 10 = false)
    (h : RecordsText f g lo hi t) : ∀ c ∈ t, c ≠ (10 : Int) := by
  obtain ⟨w, more, rfl, ⟨ws, h1, rfl⟩, _, h2⟩ := h
  intro c hc
  rcases List.mem_append.1 hc with hc | hc
  · exact fits_line f ws hf h1 c hc
  · obtain ⟨v, hv, hc⟩ := List.mem_flatten.1 hc
    obtain ⟨vs, h3, rfl⟩ := h2 v hv
    exact fits_line g vs hg h3 c hc

/-- **C80.** Checking a record and more records: for every sequence `f` and every sequence `b g` of pieces (characters, escapes but `\s`, or classes without `\s` that are not
negated, each with a greedy quantifier other than `?`), if none takes a newline, and it is clear where each piece ends (its length is fixed, or none of its characters can come next: as the
first character of a piece behind it, as `b`, which begins the next record), and every greedy quantifier `{…}` other than `?`, if the pattern takes at least one character:
`^f(?:b g){…}$` accepts a query if and only if the query, up to its end or a newline, is a text for `f`, and then texts for `b g`, as many as `{…}` says; the match is all of
them (and the newline, if there is one). -/
theorem C80_check (f g : List Piece) (b : Atom) (r : Quant) (hf : PlainPieces f) (hfe : f ≠ []) (hb : b.ok = true) (hlb : b.listing = true) (hg : PlainPieces g) (hr : Counting r)
    (hne : (∃ p ∈ f, p.times.lo ≠ 0) ∨ r.lo ≠ 0) (h1 : Parted f (fun c => b.set c || c == 10)) (h2 : Parted g (fun c => b.set c || c == 10)) (h3 : b.set 10 = false)
    (hlf : ∀ p ∈ f, p.what.set 10 = false) (hlg : ∀ p ∈ g, p.what.set 10 = false)
    (hsz : piecesSize f + (2 + piecesSize g) * (r.lo + 1) < 4294967296)
    (hc : ∀ c ∈ [94] ++ recordsSpell f (onceOf b :: g) r ++ [36], c ∈ allChars) :
    ∃ t, compile ([94] ++ recordsSpell f (onceOf b :: g) r ++ [36]) = some t ∧
      ∀ (cx : Ctx), (∀ c ∈ cx.query, c ∈ allChars) → cx.query.length < 4294967295 → cx.post.head? = some 0 →
        ∀ (fuel : Nat), cx.query.length ≤ fuel → ∃ st, construct cx t fuel = .ok st ∧
          (st.accepted = true ↔ ∃ l rest, cx.query = l ++ rest ∧ RecordsText f (onceOf b :: g) r.lo r.hi l ∧ (rest = [] ∨ rest.head? = some 10)) ∧
          ∀ l rest, cx.query = l ++ rest → RecordsText f (onceOf b :: g) r.lo r.hi l → (rest = [] ∨ rest.head? = some 10) →
            getGroup st 0 = some (some (0, if rest = [] then (l.length : Int) else l.length + 1)) := by
  have hg' : PlainPieces (onceOf b :: g) := fun p hp => by
    rcases List.mem_cons.1 hp with rfl | hp
    · exact one_plain hb hlb
    · exact hg p hp
  have hlg' : ∀ p ∈ onceOf b :: g, p.what.set 10 = false := fun p hp => by
    rcases List.mem_cons.1 hp with rfl | hp
    · exact h3
    · exact hlg p hp
  have hsp : (Alts.last true (wholeSq f (onceOf b :: g) r)).spell = [94] ++ recordsSpell f (onceOf b :: g) r ++ [36] := by
    have e1 := rec_spell f (.cons (bodyG (onceOf b :: g)) r (.nil true)) hf
    have e2 := rec_spell (onceOf b :: g) (.nil false) hg'
    simp only [wholeSq, Alts.spell, e1, recordsSpell]
    simp [bodyG, Sq.spell, Atom.spell, Alts.spell, e2]
  obtain ⟨t, ht, h⟩ := C55_nested_partial (wholeSq f (onceOf b :: g) r) (whole_committed hf hfe hb hlb hg hr hne h1 h2 h3 hsz) (by rw [hsp]; exact hc)
  rw [hsp] at ht
  refine ⟨t, ht, fun cx hq hlen hn fuel hfuel => ?_⟩
  obtain ⟨st, e1, e2⟩ := h cx hq hlen (fun _ => hn) fuel hfuel
  refine ⟨st, e1, ?_⟩
  rw [ways_caps _ (whole_shallow hf hg' hr), List.head?_map] at e2
  have hmem : ∀ v, v ∈ caps cx.query (wholeSq f (onceOf b :: g) r) 0 ↔ ∃ l rest, cx.query = l ++ rest ∧ RecordsText f (onceOf b :: g) r.lo r.hi l ∧ (rest = [] ∨ rest.head? = some 10) ∧
      v = (if rest = [] then l.length else l.length + 1, []) := by
    intro v
    rw [mem_whole hf hg' hr]
    have key : ∀ l rest : List Int, cx.query = l ++ rest → ∀ e, e ∈ (Sq.nil true).picks cx.query l.length ↔
        (rest = [] ∨ rest.head? = some 10) ∧ e = if rest = [] then l.length else l.length + 1 := by
      intro l rest hq e
      simp only [Sq.picks, hq]
      cases rest with
      | nil => simp
      | cons c rest =>
        by_cases hc : c = 10
        · subst hc; simp
        · simp [hc]
    constructor
    · rintro ⟨l, rest, g1, g2, g3, g4⟩
      obtain ⟨g5, g6⟩ := (key l rest g1 v.1).1 g4
      exact ⟨l, rest, g1, g2, g5, Prod.ext g6 g3⟩
    · rintro ⟨l, rest, g1, g2, g3, rfl⟩
      exact ⟨l, rest, g1, g2, rfl, (key l rest g1 _).2 ⟨g3, rfl⟩⟩
  have some_of : ∀ l rest, cx.query = l ++ rest → RecordsText f (onceOf b :: g) r.lo r.hi l → (rest = [] ∨ rest.head? = some 10) →
      (caps cx.query (wholeSq f (onceOf b :: g) r) 0).head? = some (if rest = [] then l.length else l.length + 1, []) := by
    intro l rest g1 g2 g3
    have hin := (hmem _).2 ⟨l, rest, g1, g2, g3, rfl⟩
    cases heq : caps cx.query (wholeSq f (onceOf b :: g) r) 0 with
    | nil => rw [heq] at hin; simp at hin
    | cons v vs =>
      obtain ⟨l', rest', g1', g2', g3', rfl⟩ := (hmem v).1 (by rw [heq]; simp)
      obtain ⟨rfl, rfl⟩ := one_line (g1.symm.trans g1') (no_line hlf hlg' g2) (no_line hlf hlg' g2') g3 g3'
      rfl
  constructor
  · constructor
    · intro hacc
      cases hh : (caps cx.query (wholeSq f (onceOf b :: g) r) 0).head? with
      | none => rw [hh] at e2; simp only [Option.map_none] at e2; rw [hacc] at e2; cases e2
      | some v =>
        obtain ⟨l, rest, g1, g2, g3, _⟩ := (hmem v).1 (List.mem_of_mem_head? hh)
        exact ⟨l, rest, g1, g2, g3⟩
    · rintro ⟨l, rest, g1, g2, g3⟩
      rw [some_of l rest g1 g2 g3] at e2
      exact e2.1
  · intro l rest g1 g2 g3
    rw [some_of l rest g1 g2 g3] at e2
    rw [e2.2.1]
    simp only
    split <;> simp

/-- There is only one such text, in front of the end of the query or of the line. -/
theorem C80_one_text (f g : List Piece) (b : Atom) (lo : Nat) (hi : Option Nat) (hlf : ∀ p ∈ f, p.what.set 10 = false) (hlg : ∀ p ∈ onceOf b :: g, p.what.set 10 = false)
    (q l l' rest rest' : List Int) (h : q = l ++ rest) (h' : q = l' ++ rest') (hl : RecordsText f (onceOf b :: g) lo hi l) (hl' : RecordsText f (onceOf b :: g) lo hi l')
    (hr : rest = [] ∨ rest.head? = some 10) (hr' : rest' = [] ∨ rest'.head? = some 10) : l = l' ∧ rest = rest' :=
  one_line (h.symm.trans h') (no_line hlf hlg hl) (no_line hlf hlg hl') hr hr'

/-! ## cases that meet the hypotheses, and one that does not -/

private theorem word_not {d : Int} (hd : (Atom.esc 119).set d = false) (c : Int) (h : (Atom.esc 119).set c = true) : (c == d) = false := by
  cases hc : (c == d) with
  | false => rfl
  | true => rw [beq_iff_eq] at hc; subst hc; rw [hd] at h; cases h

/-- `\w+=\w*` -/
def keyWithValue : List Piece := [⟨false, .esc 119, .plus .greedy⟩, ⟨false, .chr 61, .once⟩, ⟨false, .esc 119, .star .greedy⟩]

example : [94] ++ recordsSpell keyWithValue (onceOf (.chr 38) :: keyWithValue) (.star .greedy) ++ [36] = str "^\\w+=\\w*(?:&\\w+=\\w*)*$" ∧
    (∀ c ∈ [94] ++ recordsSpell keyWithValue (onceOf (.chr 38) :: keyWithValue) (.star .greedy) ++ [36], c ∈ allChars) ∧ (Atom.chr 38).ok = true ∧ (Atom.chr 38).listing = true ∧
    (Atom.chr 38).set 10 = false ∧ (∀ p ∈ keyWithValue, p.what.set 10 = false) ∧ (∃ p ∈ keyWithValue, p.times.lo ≠ 0) ∧ piecesSize keyWithValue + (2 + piecesSize keyWithValue) * (0 + 1) < 4294967296 := by decide +kernel
example : ∀ p ∈ onceOf (.chr 38) :: keyWithValue, p.what.set 10 = false := by decide
example : PlainPieces keyWithValue ∧ Counting (.star .greedy) := by
  refine ⟨fun p hp => ?_, ⟨by decide, rfl, by decide⟩⟩
  simp only [keyWithValue, List.mem_cons, List.not_mem_nil, or_false] at hp
  rcases hp with rfl | rfl | rfl <;> exact ⟨rfl, by decide, by decide, by decide, rfl, by decide⟩
/-- A key ends where the `=` is, a value where the `&` or the end of the line is. -/
example : Parted keyWithValue (fun c => (Atom.chr 38).set c || c == 10) := by
  refine ⟨Or.inr (fun c h => ?_), Or.inl rfl, Or.inr (fun c h => ?_), trivial⟩
  · have h1 := word_not (d := 61) (by decide) c h
    simpa [upcomingChars, Atom.set, Quant.lo] using h1
  · have h1 := word_not (d := 38) (by decide) c h
    have h2 := word_not (d := 10) (by decide) c h
    simp only [beq_eq_false_iff_ne, ne_eq] at h1 h2
    simp [upcomingChars, Atom.set, h1, h2]
example : RecordsText keyWithValue (onceOf (.chr 38) :: keyWithValue) 0 none (str "a=1&bc=") := by
  refine ⟨str "a=1", [str "&bc="], by decide, ⟨[str "a", str "=", str "1"], ?_, by decide⟩, ⟨by simp, by simp⟩, ?_⟩
  · exact ⟨_, _, rfl, ⟨by decide, by simp [Quant.hi], by decide⟩, _, _, rfl, ⟨by decide, by simp [Quant.hi, str], by decide⟩, _, _, rfl, ⟨by decide, by simp [Quant.hi], by decide⟩, rfl⟩
  · intro w hw
    rw [List.mem_singleton] at hw; subst hw
    exact ⟨[str "&", str "bc", str "=", []], ⟨_, _, rfl, ⟨by decide, by simp [onceOf, Quant.hi, str], by decide⟩, _, _, rfl, ⟨by decide, by simp [Quant.hi], by decide⟩, _, _, rfl,
      ⟨by decide, by simp [Quant.hi, str], by decide⟩, _, _, rfl, ⟨by decide, by simp [Quant.hi], by decide⟩, rfl⟩, by decide⟩
example : m "^\\w+=\\w*(?:&\\w+=\\w*)*$" "a=1&bc=" = some [some "a=1&bc="] ∧ m "^\\w+=\\w*(?:&\\w+=\\w*)*$" "a=1&bc" = none ∧ m "^\\w+=\\w*(?:&\\w+=\\w*)*$" "a=1&" = none ∧
    m "^\\w+=\\w*(?:&\\w+=\\w*)*$" "a=1&=2" = none ∧ m "^\\w+=\\w*(?:&\\w+=\\w*)*$" "a=1&b==" = none := by decide +kernel
example : m "^\\d{4}-\\d\\d(?:,\\d{4}-\\d\\d){1,2}$" "2024-01,2024-02" = some [some "2024-01,2024-02"] ∧ m "^\\d{4}-\\d\\d(?:,\\d{4}-\\d\\d){1,2}$" "2024-01" = none := by decide +kernel

/-- **C80 needs that the end of a record is clear**: `a=bxc=dxe=f` is three records for `\w+=\w*` with an `x` between them, and `^\w+=\w*(?:x\w+=\w*)*$` rejects it
(it accepts two such records). -/
theorem C80_refuted_unclear : RecordsText keyWithValue (onceOf (.chr 120) :: keyWithValue) 0 none (str "a=bxc=dxe=f") ∧ m "^\\w+=\\w*(?:x\\w+=\\w*)*$" "a=bxc=dxe=f" = none ∧
    m "^\\w+=\\w*(?:x\\w+=\\w*)*$" "a=bxc=d" = some [some "a=bxc=d"] := by
  refine ⟨⟨str "a=b", [str "xc=d", str "xe=f"], by decide, ⟨[str "a", str "=", str "b"], ?_, by decide⟩, ⟨by simp, by simp⟩, ?_⟩, by decide +kernel, by decide +kernel⟩
  · exact ⟨_, _, rfl, ⟨by decide, by simp [Quant.hi], by decide⟩, _, _, rfl, ⟨by decide, by simp [Quant.hi, str], by decide⟩, _, _, rfl, ⟨by decide, by simp [Quant.hi], by decide⟩, rfl⟩
  · intro w hw
    simp only [List.mem_cons, List.not_mem_nil, or_false] at hw
    rcases hw with rfl | rfl
    · exact ⟨[str "x", str "c", str "=", str "d"], ⟨_, _, rfl, ⟨by decide, by simp [onceOf, Quant.hi, str], by decide⟩, _, _, rfl, ⟨by decide, by simp [Quant.hi], by decide⟩, _, _, rfl,
        ⟨by decide, by simp [Quant.hi, str], by decide⟩, _, _, rfl, ⟨by decide, by simp [Quant.hi], by decide⟩, rfl⟩, by decide⟩
    · exact ⟨[str "x", str "e", str "=", str "f"], ⟨_, _, rfl, ⟨by decide, by simp [onceOf, Quant.hi, str], by decide⟩, _, _, rfl, ⟨by decide, by simp [Quant.hi], by decide⟩, _, _, rfl,
        ⟨by decide, by simp [Quant.hi, str], by decide⟩, _, _, rfl, ⟨by decide, by simp [Quant.hi], by decide⟩, rfl⟩, by decide⟩

end ERegex.Props

import Verif.Props.Validate
import Verif.Props.FindGroups
import Verif.Props.Records
import Verif.Props.Lexer
import Verif.Spec.Format
/-!
# C71 : checking that a query has a format
-/
set_option autoImplicit false
namespace ERegex.Props
open ERegex ERegex.Spec
open ERegex.Conformance (lit m)

/-! ## formats that meet the conditions -/

/-- `\d`, so many times -/
private def digits (kept : Bool) (n : Int) : Piece := ⟨kept, .esc 100, .exact [n] .greedy⟩
private def char (c : Int) : Piece := ⟨false, .chr c, .once⟩

/-- `(\d{4})-(\d{2})-(\d{2})` -/
private def date : List Piece := [digits true 52, char 45, digits true 50, char 45, digits true 50]
/-- `(\d+)\.(\d+)\.(\d+)` -/
private def version : List Piece :=
  [⟨true, .esc 100, .plus .greedy⟩, ⟨false, .esc 46, .once⟩, ⟨true, .esc 100, .plus .greedy⟩, ⟨false, .esc 46, .once⟩, ⟨true, .esc 100, .plus .greedy⟩]
/-- `-?\d+` -/
private def number : List Piece := [⟨false, .chr 45, .opt .greedy⟩, ⟨false, .esc 100, .plus .greedy⟩]
/-- `#[0-9a-f]{6}` -/
private def color : List Piece := [char 35, ⟨false, .cls false [.rng 48 57, .rng 97 102] false, .exact [54] .greedy⟩]

example : formatSpell date = str "^(\\d{4})-(\\d{2})-(\\d{2})$" ∧ formatSpell version = str "^(\\d+)\\.(\\d+)\\.(\\d+)$" ∧
    formatSpell number = str "^-?\\d+$" ∧ formatSpell color = str "^#[0-9a-f]{6}$" := by decide +kernel
private def AllOk (ps : List Piece) : Prop := (∀ p ∈ ps, p.ok = true) ∧ (∃ p ∈ ps, p.times.lo ≠ 0) ∧ ∀ c ∈ formatSpell ps, c ∈ allChars
private instance (ps : List Piece) : Decidable (AllOk ps) := by unfold AllOk; infer_instance
private instance (ps : List Piece) : Decidable (Numbered ps) := by unfold Numbered; infer_instance
example : AllOk date ∧ Numbered date ∧ AllOk version ∧ Numbered version ∧ AllOk number ∧ Numbered number ∧ AllOk color ∧ Numbered color := by decide +kernel
example : Clear date := by simp [date, Clear, digits, char, Quant.fixed]
example : Clear version := by
  refine ⟨Or.inr ⟨by decide, by decide, ?_⟩, Or.inl rfl, Or.inr ⟨by decide, by decide, ?_⟩, Or.inl rfl, Or.inr ⟨by decide, by decide⟩⟩ <;>
    (intro c hc; simp [Atom.set, escape] at hc ⊢; omega)
example : Clear number := by
  refine ⟨Or.inr ⟨by decide, by decide, ?_⟩, Or.inr ⟨by decide, by decide⟩⟩
  intro c hc; simp [Atom.set, escape] at hc ⊢; omega
example : Clear color := by simp [color, Clear, char, Quant.fixed]
example : Splits version (str "1.20.3") [str "1", str ".", str "20", str ".", str "3"] [] ∧
    places version [str "1", str ".", str "20", str ".", str "3"] 0 = [(0, 1), (2, 4), (5, 6)] := by
  refine ⟨⟨?_, by decide, Or.inl rfl⟩, by decide⟩
  refine ⟨_, _, rfl, ?_, _, _, rfl, ?_, _, _, rfl, ?_, _, _, rfl, ?_, _, _, rfl, ?_, rfl⟩ <;>
    exact ⟨by decide, by intro h hh; (first | (cases hh; decide) | cases hh), by decide⟩
example : m "^(\\d+)\\.(\\d+)\\.(\\d+)$" "1.20.3" = some [some "1.20.3", some "1", some "20", some "3"] ∧
    m "^(\\d+)\\.(\\d+)\\.(\\d+)$" "1.20" = none := by decide +kernel

def pieceSq (p : Piece) (s : Sq) : Sq :=
  if p.kept then .cons (.group true (.last false (.cons p.what p.times (.nil false)))) .once s else .cons p.what p.times s

/-- the pieces, `$` behind them if `d` -/
def formatSq (d : Bool) : List Piece → Sq
  | [] => .nil d
  | p :: ps => pieceSq p (formatSq d ps)

theorem format_spell : ∀ ps, (formatSq true ps).spell = (ps.map Piece.spell).flatten ++ [36]
  | [] => by simp [formatSq, Sq.spell]
  | p :: ps => by
    cases h : p.kept <;> simp [formatSq, pieceSq, h, Sq.spell, Alts.spell, Atom.spell, Quant.spell, Piece.spell, format_spell ps]

theorem not_group {a : Atom} (h : (a.steady || a.skips) = true) : ∀ c as, a ≠ .group c as := by
  rintro c as rfl
  simp [Atom.steady, Atom.skips] at h

theorem piece_atom {p : Piece} (h : p.ok = true) : p.what.ok = true ∧ p.times.sane = true ∧ p.times.mode = .greedy ∧ (p.what.steady || p.what.skips) = true ∧
    (p.times.fixed = true ∨ p.what.listing = true) := by
  simp only [Piece.ok, Bool.and_eq_true, Bool.or_eq_true] at h
  obtain ⟨⟨⟨h1, h2⟩, h3⟩, h4⟩ := h
  refine ⟨h1, h2, ?_, ?_, ?_⟩
  · cases hm : p.times.mode <;> simp [hm] at h3 ⊢
  · rcases h4 with h4 | h4
    · simpa using h4.2
    · have := h4
      simp only [Atom.listing, Bool.and_eq_true] at this
      simp [this.1]
  · rcases h4 with h4 | h4
    · exact Or.inl h4.1
    · exact Or.inr h4

theorem listing_steady {a : Atom} (h : a.listing = true) : a.steady = true := by
  simp only [Atom.listing, Bool.and_eq_true] at h
  exact h.1

theorem shown_set {a : Atom} (h : a.listing = true) {x : Int} (hx : a.shown x = true) : a.set x = true := by
  cases a with
  | dot => simp [Atom.listing] at h
  | cls neg items dash =>
    have h := listing_steady h
    simp only [Atom.steady, Bool.and_eq_true, Bool.not_eq_true'] at h
    obtain ⟨rfl, _⟩ := h
    cases items with
    | nil => simp [Atom.shown] at hx; simp [Atom.set, listed, hx]
    | cons i is => simp [Atom.shown] at hx; simp [Atom.set, listed, hx]
  | group _ _ => simp [Atom.listing, Atom.steady] at h
  | _ => exact hx

theorem le_run {S : Int → Bool} {n : Nat} : ∀ {l : List Int}, n ≤ runLen S l ↔ ∃ w r, l = w ++ r ∧ w.length = n ∧ ∀ c ∈ w, S c = true := by
  intro l
  constructor
  · intro h
    refine ⟨l.take n, l.drop n, (List.take_append_drop n l).symm, ?_, ?_⟩
    · have : runLen S l ≤ l.length := (List.takeWhile_prefix S (l := l)).length_le
      simp only [List.length_take]; omega
    · intro c hc
      have hp : l.take n <+: l.takeWhile S := by
        rw [List.prefix_iff_eq_take]
        have h2 := List.prefix_iff_eq_take.1 (List.takeWhile_prefix S (l := l))
        have hl : (l.take n).length = n := by
          have : runLen S l ≤ l.length := (List.takeWhile_prefix S (l := l)).length_le
          simp only [List.length_take]; omega
        rw [hl, h2, List.take_take]
        exact (congrArg (fun k => l.take k) (Nat.min_eq_left h)).symm
      obtain ⟨t, ht⟩ := hp
      have : c ∈ l.takeWhile S := by rw [← ht]; simp [hc]
      have := List.all_takeWhile (p := S) (l := l)
      rw [List.all_eq_true] at this
      exact this c (by assumption)
  · rintro ⟨w, r, rfl, rfl, hw⟩
    unfold runLen
    rw [List.takeWhile_append_of_pos hw]
    simp

theorem fits_counts {p : Piece} (hm : p.times.mode = .greedy) {l : List Int} {n : Nat} :
    n ∈ p.times.counts (runLen p.what.set l) ↔ ∃ w r, l = w ++ r ∧ w.length = n ∧ p.Fits w := by
  rw [mem_greedy _ _ _ (by simp [hm]), le_run, Allowed]
  constructor
  · rintro ⟨h1, w, r, h2, h3, h4⟩
    exact ⟨w, r, h2, h3, h3 ▸ h1.1, h3 ▸ h1.2, h4⟩
  · rintro ⟨w, r, h2, h3, h1, h4, h5⟩
    exact ⟨h3 ▸ ⟨h1, h4⟩, w, r, h2, h3, h5⟩

theorem piece_caps {p : Piece} (h : p.ok = true) (q : List Int) (s : Sq) (x : Nat) : caps q (pieceSq p s) x =
    (p.times.counts (runLen p.what.set (q.drop x))).flatMap
      (fun n => (caps q s (x + n)).map (fun r => (r.1, if p.kept then (x, x + n) :: r.2 else r.2))) := by
  cases hk : p.kept with
  | true => simp only [pieceSq, hk, if_true, caps_once, loop_picks, List.flatMap_map]
  | false =>
    simp only [pieceSq, hk, Bool.false_eq_true, if_false]
    have := not_group (piece_atom h).2.2.2.1
    rw [show (fun n => (caps q s (x + n)).map (fun r => (r.1, r.2))) = fun n => caps q s (x + n) by funext n; simp]
    cases hw : p.what <;> first | exact absurd hw (this _ _) | rfl

/-- Where the match ends. -/
def endAt (x : Nat) (ws : List (List Int)) (rest : List Int) : Nat := x + ws.flatten.length + if rest = [] then 0 else 1

theorem mem_caps (q : List Int) : ∀ (ps : List Piece), (∀ p ∈ ps, p.ok = true) → ∀ (x : Nat), x ≤ q.length → ∀ r,
    r ∈ caps q (formatSq true ps) x ↔ ∃ ws rest, AllFit ps ws ∧ q.drop x = ws.flatten ++ rest ∧ (rest = [] ∨ rest.head? = some 10) ∧
      r = (endAt x ws rest, places ps ws x)
  | [], _, x, hx, r => by
    simp only [formatSq, caps, Sq.picks, AllFit, List.mem_map]
    have hh : (q.drop x).head? = q[x]? := List.head?_drop
    constructor
    · rintro ⟨e, he, rfl⟩
      refine ⟨[], q.drop x, rfl, rfl, ?_⟩
      split at he
      · rename_i h1
        subst h1
        simp only [List.mem_singleton] at he
        subst he
        simp [endAt, places]
      · split at he
        · rename_i h1 h2
          simp only [List.mem_singleton] at he
          subst he
          refine ⟨Or.inr (by rw [hh]; exact h2), ?_⟩
          have : q.drop x ≠ [] := by
            intro h; rw [h] at hh; rw [h2] at hh; cases hh
          simp [endAt, places, this]
        · simp at he
    · rintro ⟨ws, rest, rfl, h1, h2, rfl⟩
      simp only [List.flatten_nil, List.nil_append] at h1
      subst h1
      refine ⟨_, ?_, rfl⟩
      rcases h2 with h2 | h2
      · have : x = q.length := by
          have := List.drop_eq_nil_iff.1 h2; omega
        simp [this, endAt]
      · rw [hh] at h2
        have hlt : x < q.length := (List.getElem?_eq_some_iff.1 h2).1
        have : q.drop x ≠ [] := by
          intro h; rw [h, h2] at hh; cases hh
        rw [if_neg (by omega), if_pos h2]
        simp [endAt, this]
  | p :: ps, h, x, hx, r => by
    have hp := h p (by simp)
    have ih := mem_caps q ps (fun p' hp' => h p' (List.mem_cons_of_mem _ hp'))
    rw [formatSq, piece_caps hp]
    simp only [List.mem_flatMap, List.mem_map, fits_counts (piece_atom hp).2.2.1, AllFit]
    constructor
    · rintro ⟨n, ⟨w, l, hl, rfl, hf⟩, r', hr', rfl⟩
      have hlen : x + w.length ≤ q.length := by
        have := congrArg List.length hl
        simp only [List.length_drop, List.length_append] at this; omega
      have hd : q.drop (x + w.length) = l := by
        rw [← List.drop_drop, hl]; simp
      obtain ⟨ws, rest, h1, h2, h3, rfl⟩ := (ih _ hlen _).1 hr'
      refine ⟨w :: ws, rest, ⟨w, ws, rfl, hf, h1⟩, ?_, h3, ?_⟩
      · rw [hl, ← hd, h2]; simp
      · simp only [places, endAt, List.flatten_cons, List.length_append]
        rw [show x + (w.length + ws.flatten.length) = x + w.length + ws.flatten.length by omega]
    · rintro ⟨ws', rest, ⟨w, ws, rfl, hf, h1⟩, h2, h3, rfl⟩
      simp only [List.flatten_cons, List.append_assoc] at h2
      have hlen : x + w.length ≤ q.length := by
        have := congrArg List.length h2
        simp only [List.length_drop, List.length_append] at this; omega
      have hd : q.drop (x + w.length) = ws.flatten ++ rest := by
        rw [← List.drop_drop, h2]; simp
      refine ⟨w.length, ⟨w, _, h2, rfl, hf⟩, _, (ih _ hlen _).2 ⟨ws, rest, h1, hd, h3, rfl⟩, ?_⟩
      simp only [places, endAt, List.flatten_cons, List.length_append]
      rw [show x + (w.length + ws.flatten.length) = x + w.length + ws.flatten.length by omega]

/-! ## the condition -/

theorem single_regular {p : Piece} (h : p.ok = true) (hf : p.times.fixed = true) : (Sq.cons p.what p.times (.nil false)).regular = true := by
  obtain ⟨h1, h2, h3, h4, _⟩ := piece_atom h
  simp [Sq.regular, h1, h2, h4, pieceOk, h3, hf]

private theorem sane_lo {k : Quant} (h : k.sane = true) : k.lo < 4294967296 := by
  cases k <;> simp_all [Quant.sane, Quant.ok, Quant.lo, boundB] <;> omega

theorem begins_format {p : Piece} (h : p.ok = true) (hlo : p.times.lo ≠ 0) (s : Sq) (x : Int) :
    ((pieceSq p s).begins x = true → p.what.set x = true) ∧ ((pieceSq p s).looks x = true → p.what.shown x = true) := by
  have hg := not_group (piece_atom h).2.2.2.1
  have hlo' : (p.times.lo == 0) = false := by simpa using hlo
  cases hk : p.kept with
  | true =>
    simp only [pieceSq, hk, if_true, Sq.begins, Sq.looks, Alts.list, Alts.head, List.any_cons, List.any_nil, Sq.first, Sq.shown, Sq.nullable, hlo']
    simp [Quant.lo]
  | false =>
    simp only [pieceSq, hk, Bool.false_eq_true, if_false]
    cases hw : p.what <;> first | exact absurd hw (hg _ _) | simp [Sq.begins, Sq.looks, hlo']

private theorem rest_loop {p : Piece} {ps : List Piece} (h : ∀ p' ∈ p :: ps, p'.ok = true) (hf : p.times.fixed = false) (hcl : Clear (p :: ps)) :
    ((p.times.lo == 0 && p.times.hi == some 1) = true ∨ ps ≠ [] → meets p.what.shown (formatSq true ps).looks = false) ∧ meets p.what.set (formatSq true ps).begins = false := by
  obtain ⟨h1, h2, h3, h4, h5⟩ := piece_atom (h p (by simp))
  rw [hf] at h5
  simp only [Bool.false_eq_true, false_or] at h5
  cases ps with
  | nil =>
    simp only [Clear, hf, Bool.false_eq_true, false_or] at hcl
    refine ⟨fun h => ?_, not_meets (fun x h6 h7 => ?_)⟩
    · rcases h with h | h
      · simp only [Bool.and_eq_true, beq_iff_eq] at h
        exact absurd h.2 (hcl.2 h.1)
      · exact absurd rfl h
    simp only [formatSq, Sq.begins, Bool.true_and, beq_iff_eq] at h7
    rw [h7, hcl.1] at h6; cases h6
  | cons p' ps =>
    simp only [Clear, hf, Bool.false_eq_true, false_or] at hcl
    obtain ⟨⟨hlo, hli, hap⟩, _⟩ := hcl
    have hp' := h p' (by simp)
    constructor
    · refine fun _ => not_meets (fun x h6 h7 => ?_)
      have := shown_set hli ((begins_format hp' hlo (formatSq true ps) x).2 h7)
      rw [hap x (shown_set h5 h6)] at this; cases this
    · refine not_meets (fun x h6 h7 => ?_)
      have := (begins_format hp' hlo (formatSq true ps) x).1 h7
      rw [hap x h6] at this; cases this

private theorem clear_tail {p : Piece} {ps : List Piece} (h : Clear (p :: ps)) : Clear ps := by
  cases ps with
  | nil => trivial
  | cons p' ps => exact h.2

theorem format_capOk : ∀ (ps : List Piece), (∀ p ∈ ps, p.ok = true) → Clear ps → (formatSq true ps).capOk = true
  | [], _, _ => rfl
  | p :: ps, h, hcl => by
    have ih := format_capOk ps (fun p' hp' => h p' (List.mem_cons_of_mem _ hp')) (clear_tail hcl)
    have hp := h p (by simp)
    obtain ⟨h1, h2, h3, h4, h5⟩ := piece_atom hp
    have hg := not_group h4
    rw [formatSq]
    cases hf : p.times.fixed with
    | true =>
      cases hk : p.kept with
      | true =>
        have hr := single_regular hp hf
        have hl := sane_lo h2
        have hset : settled (formatSq true ps) (.cons p.what p.times (.nil false)) = true := by simp [settled, h3, hf]
        simp only [pieceSq, hk, if_true, Sq.capOk, groupOk, hf, bodyOk, Alts.bare, Alts.list, List.all_cons, List.all_nil, hr, hset, headStill, ih]
        simp [Sq.dollar, Sq.empty, Sq.least, hl, Spec.apart]
      | false =>
        have ha : atomOk p.what p.times (formatSq true ps) = true := by simp [atomOk, h3, hf]
        simp only [pieceSq, hk, Bool.false_eq_true, if_false]
        cases hw : p.what <;> first | exact absurd hw (hg _ _) | (rw [hw] at h1 h4 ha; simp only [Sq.capOk, h1, h4, h2, ha, ih, Bool.and_self])
    | false =>
      rw [hf] at h5
      simp only [Bool.false_eq_true, false_or] at h5
      obtain ⟨r1, r2⟩ := rest_loop h hf hcl
      have hst := listing_steady h5
      cases hk : p.kept with
      | true =>
        have hl : loopOk p.what p.times (formatSq true ps) = true := by
          simp only [loopOk, h1, hst, h2, h3, r2]
          split
          · rename_i hm
            cases ho : (p.times.lo == 0 && p.times.hi == some 1) with
            | true => rw [r1 (Or.inl ho)] at hm; cases hm
            | false => simp
          · simp
        simp only [pieceSq, hk, if_true, Sq.capOk, groupOk, hf, ih, hl]
        simp
      | false =>
        have ha : atomOk p.what p.times (formatSq true ps) = true := by
          simp only [atomOk, h3, hf, clings, r2, hst]
          split
          · rename_i hm
            cases ps with
            | nil =>
              cases ho : (p.times.lo == 0 && p.times.hi == some 1) with
              | true => rw [r1 (Or.inl ho)] at hm; cases hm
              | false => simp [formatSq, Sq.solid]
            | cons p' ps => rw [r1 (by simp)] at hm; cases hm
          · simp
        simp only [pieceSq, hk, Bool.false_eq_true, if_false]
        cases hw : p.what <;> first | exact absurd hw (hg _ _) | (rw [hw] at h1 h4 ha; simp only [Sq.capOk, h1, h4, h2, ha, ih, Bool.and_self])

private theorem tidy_none {d : Bool} : ∀ (ps : List Piece), (∀ p ∈ ps, p.ok = true) → (∀ p ∈ ps, p.kept = false) → ∀ g n, (formatSq d ps).tidy g n = true
  | [], _, _, _, _ => rfl
  | p :: ps, h, hk, g, n => by
    have ih := tidy_none (d := d) ps (fun p' hp' => h p' (List.mem_cons_of_mem _ hp')) (fun p' hp' => hk p' (List.mem_cons_of_mem _ hp'))
    have hg := not_group (piece_atom (h p (by simp))).2.2.2.1
    simp only [formatSq, pieceSq, hk p (by simp), Bool.false_eq_true, if_false]
    cases hw : p.what <;> first | exact absurd hw (hg _ _) | simp only [Sq.tidy, ih]

theorem format_tidy' {d : Bool} : ∀ (ps : List Piece), (∀ p ∈ ps, p.ok = true) → ps.Pairwise (fun p p' => p.kept = false → p.what.isClass = true → p'.kept = false) → ∀ n, (formatSq d ps).tidy n n = true
  | [], _, _, _ => rfl
  | p :: ps, h, hn, n => by
    rw [List.pairwise_cons] at hn
    have h' : ∀ p ∈ ps, p.ok = true := fun p' hp' => h p' (List.mem_cons_of_mem _ hp')
    have ih := format_tidy' (d := d) ps h' hn.2
    have hg := not_group (piece_atom (h p (by simp))).2.2.2.1
    cases hk : p.kept with
    | true => simp [formatSq, pieceSq, hk, Sq.tidy, ih]
    | false =>
      simp only [formatSq, pieceSq, hk, Bool.false_eq_true, if_false]
      cases hw : p.what with
      | group c as => exact absurd hw (hg _ _)
      | cls neg items dash =>
        rw [Sq.tidy]
        · exact tidy_none ps h' (fun p' hp' => hn.1 p' hp' hk (by rw [hw]; rfl)) 0 n
      | _ => simp only [Sq.tidy, ih]

theorem format_tidy {d : Bool} : ∀ (ps : List Piece), (∀ p ∈ ps, p.ok = true) → Numbered ps → (formatSq d ps).tidy 0 0 = true
  | [], _, _ => rfl
  | p :: ps, h, hn => by
    cases hk : p.kept with
    | true =>
      refine format_tidy' (p :: ps) h ?_ 0
      simpa [Numbered, List.dropWhile_cons, hk] using hn
    | false =>
      have ih := format_tidy (d := d) ps (fun p' hp' => h p' (List.mem_cons_of_mem _ hp')) (by simpa [Numbered, List.dropWhile_cons, hk] using hn)
      have hg := not_group (piece_atom (h p (by simp))).2.2.2.1
      simp only [formatSq, pieceSq, hk, Bool.false_eq_true, if_false]
      cases hw : p.what <;> first | exact absurd hw (hg _ _) | simp only [Sq.tidy, ih]

theorem format_takes {d : Bool} : ∀ (ps : List Piece), (∀ p ∈ ps, p.ok = true) → (∃ p ∈ ps, p.times.lo ≠ 0) → (formatSq d ps).takes = true
  | [], _, h => by simp at h
  | p :: ps, h, hex => by
    have hg := not_group (piece_atom (h p (by simp))).2.2.2.1
    have key : p.times.lo ≠ 0 ∨ (formatSq d ps).takes = true := by
      obtain ⟨p', hp', hlo⟩ := hex
      rcases List.mem_cons.1 hp' with rfl | hp'
      · exact Or.inl hlo
      · exact Or.inr (format_takes ps (fun p' hp' => h p' (List.mem_cons_of_mem _ hp')) ⟨p', hp', hlo⟩)
    cases hk : p.kept with
    | true =>
      simp only [formatSq, pieceSq, hk, if_true, Sq.takes, Alts.list, List.all_cons, List.all_nil, Sq.eats]
      rcases key with key | key
      · have : (p.times.lo != 0) = true := by simpa using key
        rw [this]; simp [Quant.lo]
      · simp [key]
    | false =>
      have : ((p.times.lo != 0) || (formatSq d ps).takes) = true := by
        rcases key with key | key
        · have : (p.times.lo != 0) = true := by simpa using key
          simp [this]
        · simp [key]
      simp only [formatSq, pieceSq, hk, Bool.false_eq_true, if_false]
      cases hw : p.what <;> first | exact absurd hw (hg _ _) | (simp only [Sq.takes]; exact this)

private theorem format_empty (ps : List Piece) : (formatSq true ps).empty = false := by
  cases ps with
  | nil => rfl
  | cons p ps => cases hk : p.kept <;> simp [formatSq, pieceSq, hk, Sq.empty]

private theorem format_regular {ps : List Piece} (h : ∀ p ∈ ps, p.ok = true) (hcl : Clear ps) (hn : Numbered ps) (hex : ∃ p ∈ ps, p.times.lo ≠ 0) :
    (Alts.last true (formatSq true ps)).capRegular = true := by
  simp [Alts.capRegular, Alts.capSane, format_capOk ps h hcl, format_tidy ps h hn, format_takes ps h hex, format_empty]

theorem format_count {d : Bool} : ∀ (ps : List Piece), (∀ p ∈ ps, p.ok = true) → ∀ ws, AllFit ps ws → ∀ x, (formatSq d ps).count = (places ps ws x).length
  | [], _, _, rfl, x => rfl
  | p :: ps, h, ws', hf, x => by
    obtain ⟨w, ws, rfl, _, h1⟩ := hf
    have hg := not_group (piece_atom (h p (by simp))).2.2.2.1
    have hc : p.what.count = 0 := by
      cases hw : p.what <;> first | exact absurd hw (hg _ _) | rfl
    have ih := format_count (d := d) ps (fun p' hp' => h p' (List.mem_cons_of_mem _ hp')) ws h1 (x + w.length)
    cases hk : p.kept with
    | true => simp [formatSq, pieceSq, hk, Sq.count, Atom.count, Alts.count, hc, places, ih]; omega
    | false => simp [formatSq, pieceSq, hk, Sq.count, hc, places, ih]

theorem format_dollar : ∀ (ps : List Piece), (formatSq true ps).dollar = true
  | [] => rfl
  | p :: ps => by cases hk : p.kept <;> simp [formatSq, pieceSq, hk, Sq.dollar, format_dollar ps]

/-! ## there is only one way to take the query apart -/

theorem head_not {p' : Piece} {ps : List Piece} {ws : List (List Int)} {rest : List Int} (h : AllFit (p' :: ps) ws) (hlo : p'.times.lo ≠ 0) :
    ∃ c l, ws.flatten ++ rest = c :: l ∧ p'.what.set c = true := by
  obtain ⟨w, r, rfl, hf, _⟩ := h
  cases w with
  | nil => have := hf.1; simp at this; omega
  | cons c w => exact ⟨c, w ++ r.flatten ++ rest, by simp, hf.2.2 c (by simp)⟩

theorem same_run {S : Int → Bool} {w w' l l' : List Int} (h : w ++ l = w' ++ l') (h1 : ∀ c ∈ w, S c = true) (h2 : ∀ c ∈ w', S c = true)
    (h3 : ∀ c, l.head? = some c → S c = false) (h4 : ∀ c, l'.head? = some c → S c = false) : w = w' ∧ l = l' := by
  have e1 := runLen_all (more := l) h1 h3
  have e2 := runLen_all (more := l') h2 h4
  rw [h] at e1
  exact List.append_inj h (by omega)

theorem one_way : ∀ (ps : List Piece), (∀ p ∈ ps, p.ok = true) → Clear ps → ∀ (ws ws' : List (List Int)) (rest rest' : List Int), AllFit ps ws → AllFit ps ws' →
    (rest = [] ∨ rest.head? = some 10) → (rest' = [] ∨ rest'.head? = some 10) → ws.flatten ++ rest = ws'.flatten ++ rest' → ws = ws' ∧ rest = rest'
  | [], _, _, _, _, rest, rest', rfl, rfl, _, _, h => ⟨rfl, by simpa using h⟩
  | p :: ps, h, hcl, ws1, ws2, rest, rest', hf1, hf2, hr, hr', heq => by
    have ih := one_way ps (fun p' hp' => h p' (List.mem_cons_of_mem _ hp')) (clear_tail hcl)
    obtain ⟨h1, h2, h3, h4, h5⟩ := piece_atom (h p (by simp))
    obtain ⟨w, ws, rfl, hw, hws⟩ := hf1
    obtain ⟨w', ws', rfl, hw', hws'⟩ := hf2
    simp only [List.flatten_cons, List.append_assoc] at heq
    have key : w = w' ∧ ws.flatten ++ rest = ws'.flatten ++ rest' := by
      by_cases hfx : p.times.fixed = true
      · refine List.append_inj heq ?_
        have hh : p.times.hi = some p.times.lo := by
          cases hk : p.times <;> simp [hk, Quant.fixed] at hfx <;> simp [Quant.hi, Quant.lo]
        have a1 := hw.1
        have a2 := hw.2.1 _ hh
        have a3 := hw'.1
        have a4 := hw'.2.1 _ hh
        omega
      · have hend : ∀ (vs : List (List Int)) (r : List Int), AllFit ps vs → (r = [] ∨ r.head? = some 10) → ∀ c, (vs.flatten ++ r).head? = some c → p.what.set c = false := by
          intro vs r hv hr c hc
          cases ps with
          | nil =>
            have : vs = [] := hv
            subst this
            have hcl' : p.times.fixed = true ∨ (p.what.set 10 = false ∧ (p.times.lo = 0 → p.times.hi ≠ some 1)) := hcl
            have hcl' := (hcl'.resolve_left hfx).1
            rcases hr with rfl | hr
            · simp at hc
            · simp only [List.flatten_nil, List.nil_append, hr] at hc
              cases hc; exact hcl'
          | cons p' ps =>
            have hcl' := hcl.1.resolve_left hfx
            obtain ⟨d, l, e1, e2⟩ := head_not (rest := r) hv hcl'.1
            rw [e1, List.head?_cons, Option.some.injEq] at hc
            cases hpc : p.what.set c with
            | false => rfl
            | true => rw [hc, hcl'.2.2 c hpc] at e2; cases e2
        exact same_run heq hw.2.2 hw'.2.2 (hend ws rest hws hr) (hend ws' rest' hws' hr')
    obtain ⟨rfl, key⟩ := key
    obtain ⟨rfl, rfl⟩ := ih ws ws' rest rest' hws hws' hr hr' key
    exact ⟨rfl, rfl⟩

/-- **C71.** There is only one way to take a query apart in pieces. -/
theorem C71_one_way (ps : List Piece) (hok : ∀ p ∈ ps, p.ok = true) (hcl : Clear ps) (q : List Int) (ws ws' : List (List Int)) (rest rest' : List Int)
    (h : Splits ps q ws rest) (h' : Splits ps q ws' rest') : ws = ws' ∧ rest = rest' :=
  one_way ps hok hcl ws ws' rest rest' h.1 h'.1 h.2.2 h'.2.2 (h.2.1.symm.trans h'.2.1)

/-- **C71.** Checking a format: for every list of pieces (characters, escapes or classes, each a fixed number of times, or repeated and then followed by something
that cannot be taken for more of it), in which some piece must take a character: matching with `^`, the pieces and `$` (each piece in parentheses or not) accepts a query
if and only if the query, up to its end or to a line end, is texts for the pieces one after the other.  There is only one way to take the query apart like
that, and the groups are the texts of the pieces in parentheses, in order.  The match ends with them, or with the newline. -/
theorem C71_format (ps : List Piece) (hok : ∀ p ∈ ps, p.ok = true) (hcl : Clear ps) (hn : Numbered ps) (hex : ∃ p ∈ ps, p.times.lo ≠ 0)
    (hc : ∀ c ∈ formatSpell ps, c ∈ allChars) :
    ∃ t, compile (formatSpell ps) = some t ∧
      ∀ (cx : Ctx), (∀ c ∈ cx.query, c ∈ allChars) → cx.query.length < 4294967295 → cx.post.head? = some 0 →
        ∀ (fuel : Nat), cx.query.length ≤ fuel → ∃ st, construct cx t fuel = .ok st ∧
          (st.accepted = true ↔ ∃ ws rest, Splits ps cx.query ws rest) ∧
          ∀ ws rest, Splits ps cx.query ws rest →
            getGroup st 0 = some (some (0, if rest = [] then (ws.flatten.length : Int) else ws.flatten.length + 1)) ∧
            ∀ k (hk : k < (places ps ws 0).length), getGroup st (k + 1) = some (some (((places ps ws 0)[k].1 : Int), ((places ps ws 0)[k].2 : Int))) := by
  have hsp : (Alts.last true (formatSq true ps)).spell = formatSpell ps := by simp [Alts.spell, format_spell, formatSpell]
  have hr := format_regular hok hcl hn hex
  obtain ⟨t, ht, h⟩ := C55_whole_query_groups_partial (formatSq true ps) hr (by rw [hsp]; exact hc)
  rw [hsp] at ht
  refine ⟨t, ht, fun cx hq hlen hnul fuel hfuel => ?_⟩
  obtain ⟨st, e1, e2⟩ := h cx hq hlen (fun _ => hnul) fuel hfuel
  refine ⟨st, e1, ?_⟩
  rw [ways_caps _ (capOk_shallow _ (format_capOk ps hok hcl)), List.head?_map] at e2
  have hmem := mem_caps cx.query ps hok 0 (Nat.zero_le _)
  simp only [List.drop_zero] at hmem
  have some_of : ∀ ws rest, Splits ps cx.query ws rest →
      (caps cx.query (formatSq true ps) 0).head? = some (endAt 0 ws rest, places ps ws 0) := by
    rintro ws rest ⟨h1, h2, h3⟩
    have hin := (hmem _).2 ⟨ws, rest, h1, h2, h3, rfl⟩
    cases hcs : caps cx.query (formatSq true ps) 0 with
    | nil => rw [hcs] at hin; simp at hin
    | cons r l =>
      obtain ⟨ws', rest', h1', h2', h3', rfl⟩ := (hmem r).1 (by rw [hcs]; simp)
      obtain ⟨rfl, rfl⟩ := one_way ps hok hcl ws ws' rest rest' h1 h1' h3 h3' (h2.symm.trans h2')
      rfl
  constructor
  · constructor
    · intro ha
      cases hh : (caps cx.query (formatSq true ps) 0).head? with
      | none => rw [hh] at e2; simp only [Option.map_none] at e2; rw [ha] at e2; cases e2
      | some r =>
        obtain ⟨ws, rest, h1, h2, h3, _⟩ := (hmem r).1 (List.mem_of_mem_head? hh)
        exact ⟨ws, rest, h1, h2, h3⟩
    · rintro ⟨ws, rest, hs⟩
      rw [some_of ws rest hs] at e2
      exact e2.1
  · intro ws rest hs
    rw [some_of ws rest hs] at e2
    obtain ⟨_, g0, gk⟩ := e2
    constructor
    · rw [g0]
      simp only [endAt, Nat.zero_add]
      split <;> simp
    · intro k hk
      have hcount : (Alts.last true (formatSq true ps)).count = (places ps ws 0).length := by
        simpa [Alts.count] using format_count (d := true) ps hok ws hs.1 0
      rw [gk k (by rw [hcount]; exact hk)]
      simp only [fill_get (places ps ws 0) 0 k noCaps (fun _ _ => rfl) (Nat.zero_le _), Nat.sub_zero, List.getElem?_eq_getElem hk, Option.map_some]

/-- **C71 is false of formats with a class between two groups**: `^(\d)[a-z](\d)$` reports, for `1a7`, the second digit as the first group and nothing as the second. -/
theorem C71_refuted_numbering : m "^(\\d)[a-z](\\d)$" "1a7" = some [some "1a7", some "7", some ""] := by decide +kernel

/-- **C71 is false of formats in which it is not clear where a piece ends**: `12` is some digits and a digit or letter, and `^\d+[a-z0-9]$` rejects it. -/
theorem C71_refuted_unclear : (build (str "^\\d+[a-z0-9]$")).map (fun b => ends (str "12") (toRx b) 0) = some [2] ∧
    m "^\\d+[a-z0-9]$" "12" = none := by decide +kernel

end ERegex.Props

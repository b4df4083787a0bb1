import Verif.Props.Format
/-!
# C73 : searching for a format
-/
set_option autoImplicit false
namespace ERegex.Props
open ERegex ERegex.Spec
open ERegex.Conformance (lit m)

/-! ## formats that meet the conditions -/

/-- `(\w+)=(\d*)` -/
private def setting : List Piece := [⟨true, .esc 119, .plus .greedy⟩, ⟨false, .chr 61, .once⟩, ⟨true, .esc 100, .star .greedy⟩]
/-- `<([a-z]+)>` -/
private def tag : List Piece := [⟨false, .chr 60, .once⟩, ⟨true, .cls false [.rng 97 122] false, .plus .greedy⟩, ⟨false, .chr 62, .once⟩]
/-- `#[0-9a-f]{6}` -/
private def color : List Piece := [⟨false, .chr 35, .once⟩, ⟨false, .cls false [.rng 48 57, .rng 97 102] false, .exact [54] .greedy⟩]

example : piecesSpell setting = str "(\\w+)=(\\d*)" ∧ piecesSpell tag = str "<([a-z]+)>" ∧ piecesSpell color = str "#[0-9a-f]{6}" := by decide +kernel
private def AllOk (ps : List Piece) : Prop := (∀ p ∈ ps, p.ok = true) ∧ (∃ p ∈ ps, p.times.lo ≠ 0) ∧ ∀ c ∈ piecesSpell ps, c ∈ allChars
private instance (ps : List Piece) : Decidable (AllOk ps) := by unfold AllOk; infer_instance
private instance (ps : List Piece) : Decidable (Numbered ps) := by unfold Numbered; infer_instance
example : AllOk setting ∧ Numbered setting ∧ AllOk tag ∧ Numbered tag ∧ AllOk color ∧ Numbered color := by decide +kernel
example : Ended setting := by
  refine ⟨Or.inr ⟨by decide, by decide, fun c hc => ?_⟩, Or.inl rfl, trivial⟩
  have : c ≠ 61 := by rintro rfl; revert hc; decide
  simpa [Atom.set] using this
example : Ended tag := by
  refine ⟨Or.inl rfl, Or.inr ⟨by decide, by decide, fun c hc => ?_⟩, trivial⟩
  have : c ≠ 62 := by rintro rfl; revert hc; decide
  simpa [Atom.set] using this
example : Ended color := ⟨Or.inl rfl, trivial⟩
example : Front setting ∧ Front tag ∧ Front color :=
  ⟨Or.inr ⟨rfl, rfl, rfl, rfl, rfl⟩, Or.inl ⟨rfl, rfl, rfl⟩, Or.inl ⟨rfl, rfl, rfl⟩⟩
example : m "(\\w+)=(\\d*)" ".a=1, b, c=23d=" = some [some "a=1", some "a", some "1"] ∧ m "(\\w+)=(\\d*)" ".a=1, b, c=23d=" 1 = some [some "c=23", some "c", some "23"] ∧
    m "(\\w+)=(\\d*)" ".a=1, b, c=23d=" 2 = some [some "d=", some "d", some ""] ∧ m "#[0-9a-f]{6}" "#12#34abcd" = some [some "#34abcd"] := by decide +kernel

/-! ## the matches -/

private theorem mem_pieces (q : List Int) : ∀ (ps : List Piece), (∀ p ∈ ps, p.ok = true) → ∀ (x : Nat) r,
    r ∈ caps q (formatSq false ps) x ↔ ∃ ws rest, AllFit ps ws ∧ q.drop x = ws.flatten ++ rest ∧ r = (x + ws.flatten.length, places ps ws x)
  | [], _, x, r => by
    simp only [formatSq, caps, Sq.picks, AllFit, List.map_cons, List.map_nil, List.mem_singleton]
    constructor
    · rintro rfl
      exact ⟨[], q.drop x, rfl, rfl, rfl⟩
    · rintro ⟨ws, rest, rfl, h1, rfl⟩
      rfl
  | p :: ps, h, x, r => by
    have hp := h p (by simp)
    have ih := mem_pieces q ps (fun p' hp' => h p' (List.mem_cons_of_mem _ hp'))
    rw [formatSq, piece_caps hp]
    simp only [List.mem_flatMap, List.mem_map, fits_counts (piece_atom hp).2.2.1, AllFit]
    constructor
    · rintro ⟨n, ⟨w, l, hl, rfl, hf⟩, r', hr', rfl⟩
      have hd : q.drop (x + w.length) = l := by
        rw [← List.drop_drop, hl]; simp
      obtain ⟨ws, rest, h1, h2, rfl⟩ := (ih _ _).1 hr'
      refine ⟨w :: ws, rest, ⟨w, ws, rfl, hf, h1⟩, ?_, ?_⟩
      · rw [hl, ← hd, h2]; simp
      · simp only [places, List.flatten_cons, List.length_append, Nat.add_assoc]
    · rintro ⟨ws', rest, ⟨w, ws, rfl, hf, h1⟩, h2, rfl⟩
      simp only [List.flatten_cons, List.append_assoc] at h2
      have hd : q.drop (x + w.length) = ws.flatten ++ rest := by
        rw [← List.drop_drop, h2]; simp
      refine ⟨w.length, ⟨w, _, h2, rfl, hf⟩, _, (ih _ _).2 ⟨ws, rest, h1, hd, rfl⟩, ?_⟩
      simp only [places, List.flatten_cons, List.length_append, Nat.add_assoc]

private theorem told_tail {p : Piece} {ps : List Piece} (h : Ended (p :: ps)) : Ended ps := by
  cases ps with
  | nil => trivial
  | cons p' ps => exact h.2

/-- All texts but the last are determined. -/
private theorem first_text {p p' : Piece} {ps : List Piece} (hto : Ended (p :: p' :: ps)) {w w' : List Int} {ws ws' : List (List Int)} {rest rest' : List Int} (hw : p.Fits w)
    (hw' : p.Fits w') (hws : AllFit (p' :: ps) ws) (hws' : AllFit (p' :: ps) ws') (heq : w ++ (ws.flatten ++ rest) = w' ++ (ws'.flatten ++ rest')) :
    w = w' ∧ ws.flatten ++ rest = ws'.flatten ++ rest' := by
  by_cases hfx : p.times.fixed = true
  · refine List.append_inj heq ?_
    have hh : p.times.hi = some p.times.lo := by
      cases hk : p.times <;> simp [hk, Quant.fixed] at hfx <;> simp [Quant.hi, Quant.lo]
    have a1 := hw.1
    have a2 := hw.2.1 _ hh
    have a3 := hw'.1
    have a4 := hw'.2.1 _ hh
    omega
  · have hend : ∀ (vs : List (List Int)) (r : List Int), AllFit (p' :: ps) vs → ∀ c, (vs.flatten ++ r).head? = some c → p.what.set c = false := by
      intro vs r hv c hc
      have hcl' := hto.1.resolve_left hfx
      obtain ⟨d, l, e1, e2⟩ := head_not (rest := r) hv hcl'.1
      rw [e1, List.head?_cons, Option.some.injEq] at hc
      cases hpc : p.what.set c with
      | false => rfl
      | true => rw [hc, hcl'.2.2 c hpc] at e2; cases e2
    exact same_run heq hw.2.2 hw'.2.2 (hend ws rest hws) (hend ws' rest' hws')

private theorem all_but_last : ∀ (ps : List Piece), Ended ps → ∀ (ws ws' : List (List Int)) (rest rest' : List Int), AllFit ps ws → AllFit ps ws' →
    ws.flatten ++ rest = ws'.flatten ++ rest' → ws.dropLast = ws'.dropLast
  | [], _, _, _, _, _, rfl, rfl, _ => rfl
  | [p], _, ws1, ws2, rest, rest', hf1, hf2, heq => by
    obtain ⟨w, ws, rfl, hw, rfl⟩ := hf1
    obtain ⟨w', ws', rfl, hw', rfl⟩ := hf2
    rfl
  | p :: p' :: ps, hto, ws1, ws2, rest, rest', hf1, hf2, heq => by
    obtain ⟨w, ws, rfl, hw, hws⟩ := hf1
    obtain ⟨w', ws', rfl, hw', hws'⟩ := hf2
    simp only [List.flatten_cons, List.append_assoc] at heq
    obtain ⟨rfl, key⟩ := first_text hto hw hw' hws hws' heq
    have ih := all_but_last (p' :: ps) (told_tail hto) ws ws' rest rest' hws hws' key
    obtain ⟨v, vs, rfl, _⟩ := hws
    obtain ⟨v', vs', rfl, _⟩ := hws'
    rw [List.dropLast_cons_cons, List.dropLast_cons_cons, ih]

private theorem head_max {k : Quant} (hm : k.mode = .greedy) {r n0 : Nat} (h : (k.counts r).head? = some n0) : ∀ n ∈ k.counts r, n ≤ n0 := by
  simp only [Quant.counts, hm] at h ⊢
  rw [List.head?_reverse] at h
  intro n hn
  rw [List.mem_reverse] at hn
  rw [List.getLast?_range'] at h
  split at h
  · cases h
  · simp only [Option.some.injEq] at h
    rw [List.mem_range'_1] at hn
    omega

private theorem first_longest (q : List Int) : ∀ (ps : List Piece), (∀ p ∈ ps, p.ok = true) → Ended ps → ∀ (x : Nat) r0, (caps q (formatSq false ps) x).head? = some r0 →
    ∀ r ∈ caps q (formatSq false ps) x, r.1 ≤ r0.1
  | [], _, _, x, r0, h, r, hr => by
    simp [formatSq, caps, Sq.picks] at h hr
    subst h hr
    simp
  | [p], hok, _, x, r0, h, r, hr => by
    have hp := hok p (by simp)
    rw [formatSq, piece_caps hp] at h hr
    simp only [formatSq, caps, Sq.picks, List.map_cons, List.map_nil, ← List.map_eq_flatMap] at h hr
    rw [List.head?_map] at h
    cases hh : (p.times.counts (runLen p.what.set (q.drop x))).head? with
    | none => rw [hh] at h; cases h
    | some n0 =>
      rw [hh] at h
      simp only [Option.map_some, Option.some.injEq] at h
      subst h
      obtain ⟨n, hn, rfl⟩ := List.mem_map.1 hr
      have := head_max (piece_atom hp).2.2.1 hh n hn
      simp only; omega
  | p :: p' :: ps, hok, hto, x, r0, h, r, hr => by
    have hp := hok p (by simp)
    have hok' : ∀ p'' ∈ p' :: ps, p''.ok = true := fun p'' hp'' => hok p'' (List.mem_cons_of_mem _ hp'')
    have hm := (piece_atom hp).2.2.1
    rw [formatSq, piece_caps hp] at h hr
    rw [List.head?_flatMap] at h
    obtain ⟨n0, hn0, hh⟩ := List.exists_of_findSome?_eq_some h
    obtain ⟨n, hn, hr⟩ := List.mem_flatMap.1 hr
    rw [List.head?_map] at hh
    cases hc : (caps q (formatSq false (p' :: ps)) (x + n0)).head? with
    | none => rw [hc] at hh; cases hh
    | some s0 =>
      rw [hc] at hh
      simp only [Option.map_some, Option.some.injEq] at hh
      subst hh
      obtain ⟨s, hs, rfl⟩ := List.mem_map.1 hr
      obtain ⟨w0, l0, e0, rfl, f0⟩ := (fits_counts hm).1 hn0
      obtain ⟨w, l, e, rfl, f⟩ := (fits_counts hm).1 hn
      obtain ⟨vs0, t0, g0, d0, _⟩ := (mem_pieces q _ hok' _ _).1 (List.mem_of_mem_head? hc)
      obtain ⟨vs, t, g, d, _⟩ := (mem_pieces q _ hok' _ _).1 hs
      rw [← List.drop_drop, e0, List.drop_left] at d0
      rw [← List.drop_drop, e, List.drop_left] at d
      have := first_text hto f0 f g0 g (rest := t0) (rest' := t) (by rw [← d0, ← d, ← e0, ← e])
      obtain ⟨rfl, _⟩ := this
      exact first_longest q (p' :: ps) hok' (told_tail hto) _ _ hc s hs

/-! ## the condition -/

private theorem rest_apart {p : Piece} {ps : List Piece} (h : ∀ p' ∈ p :: ps, p'.ok = true) (hf : p.times.fixed = false) (hto : Ended (p :: ps)) :
    meets p.what.shown (formatSq false ps).looks = false ∧ ((formatSq false ps).voids = true ∨ meets p.what.set (formatSq false ps).begins = false) := by
  obtain ⟨h1, h2, h3, h4, h5⟩ := piece_atom (h p (by simp))
  rw [hf] at h5
  simp only [Bool.false_eq_true, false_or] at h5
  cases ps with
  | nil => exact ⟨not_meets (fun x _ h => by simp [formatSq, Sq.looks] at h), Or.inl rfl⟩
  | cons p' ps =>
    simp only [Ended, hf, Bool.false_eq_true, false_or] at hto
    obtain ⟨⟨hlo, hli, hap⟩, _⟩ := hto
    have hp' := h p' (by simp)
    constructor
    · refine not_meets (fun x h6 h7 => ?_)
      have := shown_set hli ((begins_format hp' hlo (formatSq false ps) x).2 h7)
      rw [hap x (shown_set h5 h6)] at this; cases this
    · refine Or.inr (not_meets (fun x h6 h7 => ?_))
      have := (begins_format hp' hlo (formatSq false ps) x).1 h7
      rw [hap x h6] at this; cases this

private theorem sane_lo {k : Quant} (h : k.sane = true) : k.lo < 4294967296 := by
  cases k <;> simp_all [Quant.sane, Quant.ok, Quant.lo, boundB] <;> omega

private theorem pieces_capOk : ∀ (ps : List Piece), (∀ p ∈ ps, p.ok = true) → Ended ps → (formatSq false ps).capOk = true
  | [], _, _ => rfl
  | p :: ps, h, hto => by
    have ih := pieces_capOk ps (fun p' hp' => h p' (List.mem_cons_of_mem _ hp')) (told_tail hto)
    have hp := h p (by simp)
    obtain ⟨h1, h2, h3, h4, h5⟩ := piece_atom hp
    have hg := not_group h4
    rw [formatSq]
    cases hf : p.times.fixed with
    | true =>
      cases hk : p.kept with
      | true =>
        have hr := single_regular hp hf
        have hl := sane_lo h2
        have hset : settled (formatSq false ps) (.cons p.what p.times (.nil false)) = true := by simp [settled, h3, hf]
        simp only [pieceSq, hk, if_true, Sq.capOk, groupOk, hf, bodyOk, Alts.bare, Alts.list, List.all_cons, List.all_nil, hr, hset, headStill, ih]
        simp [Sq.dollar, Sq.empty, Sq.least, hl, Spec.apart]
      | false =>
        have ha : atomOk p.what p.times (formatSq false ps) = true := by simp [atomOk, h3, hf]
        simp only [pieceSq, hk, Bool.false_eq_true, if_false]
        cases hw : p.what <;> first | exact absurd hw (hg _ _) | (rw [hw] at h1 h4 ha; simp only [Sq.capOk, h1, h4, h2, ha, ih, Bool.and_self])
    | false =>
      rw [hf] at h5
      simp only [Bool.false_eq_true, false_or] at h5
      obtain ⟨r1, r2⟩ := rest_apart h hf hto
      have hst := listing_steady h5
      have r3 : ((formatSq false ps).voids || !meets p.what.set (formatSq false ps).begins) = true := by
        rcases r2 with r2 | r2 <;> simp [r2]
      cases hk : p.kept with
      | true =>
        have hl : loopOk p.what p.times (formatSq false ps) = true := by
          simp only [loopOk, h1, hst, h2, h3, r1, r3]
          simp
        simp only [pieceSq, hk, if_true, Sq.capOk, groupOk, hf, ih, hl]
        simp
      | false =>
        have ha : atomOk p.what p.times (formatSq false ps) = true := by
          simp only [atomOk, h3, hf, clings, r1, r3]
          simp
        simp only [pieceSq, hk, Bool.false_eq_true, if_false]
        cases hw : p.what <;> first | exact absurd hw (hg _ _) | (rw [hw] at h1 h4 ha; simp only [Sq.capOk, h1, h4, h2, ha, ih, Bool.and_self])

private theorem single_solid {p : Piece} (h : p.single) (s : Sq) : (pieceSq p s).solid = true := by
  obtain ⟨h1, h2, h3⟩ := h
  simp only [pieceSq, h1, h2, Bool.false_eq_true, if_false]
  cases hw : p.what <;> rw [hw] at h3 <;> first | (simp [Atom.steady] at h3; done) | simpa [Sq.solid] using h3

private theorem front_ok {ps : List Piece} (h : Front ps) : (formatSq false ps).solid = true ∨ (formatSq false ps).startsLoop = true := by
  have loop : ∀ (p : Piece) (s : Sq), p.what.steady = true → (p.kept = true → p.times.fixed = false) → (s.voids = true ∨ (p.times.hi = none ∧ s.solid = true)) →
      (pieceSq p s).startsLoop = true := by
    intro p s h1 h2 h3
    have hb : (s.voids || (p.times.hi == none && s.solid)) = true := by
      rcases h3 with h3 | ⟨h3, h4⟩ <;> simp [*]
    cases hk : p.kept with
    | true => simp only [pieceSq, hk, if_true, Sq.startsLoop, h1, h2 hk, hb]; rfl
    | false =>
      simp only [pieceSq, hk, Bool.false_eq_true, if_false]
      cases hw : p.what <;> rw [hw] at h1 <;> first | (simp [Atom.steady] at h1; done) | (simp only [Sq.startsLoop, h1, hb]; rfl)
  match ps, h with
  | [p], h => exact Or.inr (loop p _ h.1 h.2 (Or.inl rfl))
  | p :: p' :: ps, Or.inl h => exact Or.inl (single_solid h _)
  | p :: p' :: ps, Or.inr ⟨h1, h2, h3⟩ =>
    refine Or.inr (loop p _ h1 (fun _ => ?_) (Or.inr ⟨h2, single_solid h3 _⟩))
    cases hk : p.times <;> simp [hk, Quant.hi] at h2 <;> rfl

private theorem pieces_regular {ps : List Piece} (h : ∀ p ∈ ps, p.ok = true) (hto : Ended ps) (hn : Numbered ps) (hfr : Front ps) :
    (Alts.last false (formatSq false ps)).capRegular = true := by
  have he : (formatSq false ps).empty = false := by
    cases ps with
    | nil => exact absurd hfr (by simp [Front])
    | cons p ps => cases hk : p.kept <;> simp [formatSq, pieceSq, hk, Sq.empty]
  simp [Alts.capRegular, Alts.capSane, pieces_capOk ps h hto, format_tidy ps h hn, he, front_ok hfr]

private theorem pieces_spell : ∀ ps, (formatSq false ps).spell = piecesSpell ps
  | [] => by simp [formatSq, Sq.spell, piecesSpell]
  | p :: ps => by
    have := pieces_spell ps
    simp only [piecesSpell] at this
    cases h : p.kept <;> simp [formatSq, pieceSq, h, Sq.spell, Alts.spell, Atom.spell, Quant.spell, Piece.spell, piecesSpell, this]

private theorem pieces_count : ∀ (ps : List Piece), (∀ p ∈ ps, p.ok = true) → (formatSq false ps).count = (ps.filter Piece.kept).length
  | [], _ => rfl
  | p :: ps, h => by
    have hg := not_group (piece_atom (h p (by simp))).2.2.2.1
    have hc : p.what.count = 0 := by
      cases hw : p.what <;> first | exact absurd hw (hg _ _) | rfl
    have ih := pieces_count ps (fun p' hp' => h p' (List.mem_cons_of_mem _ hp'))
    cases hk : p.kept with
    | true => simp [formatSq, pieceSq, hk, Sq.count, Atom.count, Alts.count, hc, ih]; omega
    | false => simp [formatSq, pieceSq, hk, Sq.count, hc, ih]

private theorem pieces_dollar : ∀ (ps : List Piece), (formatSq false ps).dollar = false
  | [] => rfl
  | p :: ps => by cases hk : p.kept <;> simp [formatSq, pieceSq, hk, Sq.dollar, pieces_dollar ps]

/-- **C73.** Searching for a format: for every list of pieces as in C71 (the last piece may be any) that begins with a single character, or with a repetition without
upper bound and then a single character, and in which some piece must take a character: matching, `next()` and a range-for report, from left to right and without overlap,
the texts in the query that have the format: `g q x` is what is found at offset `x`. It is nothing only if no text that begins there has the format; otherwise it is
the longest that begins there; any two such texts are taken apart in the same way, but for the last piece; and the groups are the texts of the pieces in parentheses. -/
theorem C73_search (ps : List Piece) (hok : ∀ p ∈ ps, p.ok = true) (hto : Ended ps) (hn : Numbered ps) (hfr : Front ps) (hex : ∃ p ∈ ps, p.times.lo ≠ 0)
    (hc : ∀ c ∈ piecesSpell ps, c ∈ allChars) :
    ∃ g : List Int → Nat → Option (Nat × Caps), FindsGroups (piecesSpell ps) (ps.filter Piece.kept).length false g ∧
      ∀ q x, (g q x = none → ∀ ws rest, AllFit ps ws → q.drop x ≠ ws.flatten ++ rest) ∧
        ∀ w, g q x = some w → ∃ ws rest, AllFit ps ws ∧ q.drop x = ws.flatten ++ rest ∧ w.1 = x + ws.flatten.length ∧ (∀ k, w.2 k = (places ps ws x)[k]?) ∧
          ∀ ws' rest', AllFit ps ws' → q.drop x = ws'.flatten ++ rest' → ws'.dropLast = ws.dropLast ∧ ws'.flatten.length ≤ ws.flatten.length := by
  have hsp : (Alts.last false (formatSq false ps)).spell = piecesSpell ps := by simp [Alts.spell, pieces_spell]
  have hr := pieces_regular hok hto hn hfr
  have hf := C50_groups_partial (.last false (formatSq false ps)) hr (by rw [hsp]; exact hc) (by simpa [Alts.takes, Alts.list] using format_takes ps hok hex)
  have hcount : (Alts.last false (formatSq false ps)).count = (ps.filter Piece.kept).length := by simp [Alts.count, pieces_count ps hok]
  have hdol : (Alts.last false (formatSq false ps)).dollar = false := by simp [Alts.dollar, pieces_dollar]
  rw [hsp, hcount, hdol] at hf
  refine ⟨_, hf, fun q x => ?_⟩
  have hbest : bestWay (.last false (formatSq false ps)) q x = ((caps q (formatSq false ps) x).head?).map (fun r => (r.1, fill noCaps 0 r.2)) := by
    rw [bestWay]
    simp only [Alts.ways, Bool.false_and, Bool.false_eq_true, if_false]
    rw [ways_caps _ (capOk_shallow _ (pieces_capOk ps hok hto)), List.head?_map]
  rw [hbest]
  constructor
  · intro hnone ws rest h1 h2
    simp only [Option.map_eq_none_iff, List.head?_eq_none_iff] at hnone
    have := (mem_pieces q ps hok x _).2 ⟨ws, rest, h1, h2, rfl⟩
    rw [hnone] at this; simp at this
  · intro w hw
    cases hh : (caps q (formatSq false ps) x).head? with
    | none => rw [hh] at hw; simp at hw
    | some r =>
      rw [hh] at hw
      simp only [Option.map_some, Option.some.injEq] at hw
      subst hw
      obtain ⟨ws, rest, g1, g2, rfl⟩ := (mem_pieces q ps hok x r).1 (List.mem_of_mem_head? hh)
      refine ⟨ws, rest, g1, g2, rfl, fun k => ?_, fun ws' rest' h1 h2 => ⟨?_, ?_⟩⟩
      · simp only [fill_get (places ps ws x) 0 k noCaps (fun _ _ => rfl) (Nat.zero_le _), Nat.sub_zero]
      · exact all_but_last ps hto ws' ws rest' rest h1 g1 (h2.symm.trans g2)
      · have := first_longest q ps hok hto x _ hh _ ((mem_pieces q ps hok x _).2 ⟨ws', rest', h1, h2, rfl⟩)
        simp only at this; omega

/-- **C73 is false of formats that begin with a fixed number of characters**: `23-4` in `123-4` has the format, and `\d{2}-\d` does not find it. -/
theorem C73_refuted_fixed : (build (str "\\d{2}-\\d")).map (fun b => ends (str "123-4") (toRx b) 1) = some [5] ∧ m "\\d{2}-\\d" "123-4" = none := by decide +kernel

/-- **C73 is false of formats that begin with a bounded repetition**: `234:5` in `1234:5` has the format, and `\d{1,3}:\d` reports `4:5`. -/
theorem C73_refuted_bounded : (build (str "\\d{1,3}:\\d")).map (fun b => ends (str "1234:5") (toRx b) 1) = some [6] ∧
    m "\\d{1,3}:\\d" "1234:5" = some [some "4:5"] := by decide +kernel

end ERegex.Props

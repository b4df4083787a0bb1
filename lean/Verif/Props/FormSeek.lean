import Verif.Props.Form
import Verif.Props.FindGroups
/-!
# C76 : searching for a form
-/
set_option autoImplicit false
namespace ERegex.Props
open ERegex ERegex.Spec
open ERegex.Conformance (lit m)

/-! ## forms that meet the conditions -/

private def chr (c : Char) : Slot := .piece ⟨false, .chr c.toNat, .once⟩
private def word : Slot := .piece ⟨true, .esc 119, .plus .greedy⟩
/-- `(?:GET|POST) /(\w+)` -/
private def request : List Slot := [.words false [str "GET", str "POST"], chr ' ', chr '/', word]
/-- `(\w+)\.(jpg|png|gif)` -/
private def picture : List Slot := [word, .piece ⟨false, .esc 46, .once⟩, .words true [str "jpg", str "png", str "gif"]]
/-- `\d+(?:px|em|%)` -/
private def size : List Slot := [.piece ⟨false, .esc 100, .plus .greedy⟩, .words false [str "px", str "em", str "%"]]

example : slotsSpell request = str "(?:GET|POST) /(\\w+)" ∧ slotsSpell picture = str "(\\w+)\\.(jpg|png|gif)" ∧ slotsSpell size = str "\\d+(?:px|em|%)" := by decide +kernel
private instance (e : Slot) : Decidable e.Ok := by cases e <;> (simp only [Slot.Ok]; infer_instance)
private instance (es : List Slot) : Decidable (SlotsNumbered es) := by unfold SlotsNumbered; infer_instance
private def FormOk (es : List Slot) : Prop := (∀ e ∈ es, e.Ok) ∧ SlotsNumbered es ∧ (∃ e ∈ es, e.must = true) ∧ ∀ c ∈ slotsSpell es, c ∈ allChars
private instance (es : List Slot) : Decidable (FormOk es) := by unfold FormOk; infer_instance
example : FormOk request ∧ FormOk picture ∧ FormOk size := by decide +kernel
private theorem no_prefix {ws : List (List Int)} (h : ws.Pairwise (fun w w' => w.isPrefixOf w' = false)) : ws.Pairwise (fun w w' => ¬ w <+: w') :=
  h.imp fun {w w'} h hp => by rw [List.isPrefixOf_iff_prefix.2 hp] at h; cases h
example : SlotsEnded request := by
  refine ⟨⟨by simp [chr, Slot.must, Quant.lo], ?_⟩, Or.inl rfl, Or.inl rfl, trivial⟩
  have h : [str "GET", str "POST"].Pairwise (fun w w' => w.isPrefixOf w' = false ∧ w'.isPrefixOf w = false) := by decide +kernel
  exact h.imp fun {w w'} h => by
    refine ⟨fun hp => ?_, fun c r e => ?_⟩
    · rw [List.isPrefixOf_iff_prefix.2 hp] at h; cases h.1
    · rw [List.isPrefixOf_iff_prefix.2 ⟨_, e.symm⟩] at h; cases h.2
example : SlotsEnded picture := by
  refine ⟨Or.inr ⟨rfl, fun c hc => ?_⟩, Or.inl rfl, no_prefix (by decide +kernel)⟩
  have h1 : c ≠ 46 := by rintro rfl; revert hc; decide
  simpa [Slot.starts, Atom.set, escape] using h1
example : SlotsEnded size := by
  refine ⟨Or.inr ⟨rfl, fun c hc => ?_⟩, no_prefix (by decide +kernel)⟩
  have h1 : c ≠ 112 := by rintro rfl; revert hc; decide
  have h2 : c ≠ 101 := by rintro rfl; revert hc; decide
  have h3 : c ≠ 37 := by rintro rfl; revert hc; decide
  simp [Slot.starts, str]; omega
example : SlotsFront request ∧ SlotsFront picture ∧ SlotsFront size :=
  ⟨rfl, Or.inr ⟨rfl, rfl, rfl, rfl, rfl⟩, Or.inr ⟨rfl, rfl, rfl⟩⟩
example : m "(?:GET|POST) /(\\w+)" "GEGET POST /a GET /bc" = some [some "POST /a", some "a"] ∧ m "(?:GET|POST) /(\\w+)" "GEGET POST /a GET /bc" 1 = some [some "GET /bc", some "bc"] ∧
    m "(\\w+)\\.(jpg|png|gif)" "a.txt b.c.png, d.jpg" = some [some "c.png", some "c", some "png"] ∧ m "\\d+(?:px|em|%)" "12p3em" = some [some "3em"] := by decide +kernel

/-! ## the matches -/

private theorem mem_slots (q : List Int) : ∀ (es : List Slot), (∀ e ∈ es, e.Ok) → ∀ (x : Nat) r,
    r ∈ caps q (formSq false es) x ↔ ∃ ts rest, Fill es ts ∧ q.drop x = ts.flatten ++ rest ∧ r = (x + ts.flatten.length, spots es ts x)
  | [], _, x, r => by
    simp only [formSq, caps, Sq.picks, Fill, List.map_cons, List.map_nil, List.mem_singleton]
    constructor
    · rintro rfl
      exact ⟨[], q.drop x, rfl, rfl, rfl⟩
    · rintro ⟨ws, rest, rfl, h1, rfl⟩
      rfl
  | e :: es, h, x, r => by
    have ih := mem_slots q es (fun e' he' => h e' (List.mem_cons_of_mem _ he'))
    rw [formSq, mem_slot (h e (by simp))]
    constructor
    · rintro ⟨w, l, hl, hf, r', hr', rfl⟩
      have hd : q.drop (x + w.length) = l := by
        rw [← List.drop_drop, hl]; simp
      obtain ⟨ts, rest, h1, h2, rfl⟩ := (ih _ _).1 hr'
      refine ⟨w :: ts, rest, ⟨w, ts, rfl, hf, h1⟩, ?_, ?_⟩
      · rw [hl, ← hd, h2]; simp
      · simp only [spots, List.flatten_cons, List.length_append, Nat.add_assoc]
    · rintro ⟨ts', rest, ⟨w, ts, rfl, hf, h1⟩, h2, rfl⟩
      simp only [List.flatten_cons, List.append_assoc] at h2
      have hd : q.drop (x + w.length) = ts.flatten ++ rest := by
        rw [← List.drop_drop, h2]; simp
      refine ⟨w, _, h2, hf, _, (ih _ _).2 ⟨ts, rest, h1, hd, rfl⟩, ?_⟩
      simp only [spots, List.flatten_cons, List.length_append, Nat.add_assoc]

private theorem ended_tail {e : Slot} {es : List Slot} (h : SlotsEnded (e :: es)) : SlotsEnded es := by
  cases es with
  | nil => trivial
  | cons e' es =>
    have h : e.ClearOf (e' :: es) ∧ SlotsEnded (e' :: es) := by cases e <;> exact h
    exact h.2

private theorem ended_head {e e' : Slot} {es : List Slot} (h : SlotsEnded (e :: e' :: es)) : e.ClearOf (e' :: es) := by
  have h : e.ClearOf (e' :: es) ∧ SlotsEnded (e' :: es) := by cases e <;> exact h
  exact h.1

private theorem fill_starts {e : Slot} {es : List Slot} (he : e.Ok) (hm : e.must = true) {ts : List (List Int)} {rest : List Int} (h : Fill (e :: es) ts)
    {c : Int} {l : List Int} (hc : ts.flatten ++ rest = c :: l) : e.starts c = true := by
  obtain ⟨w, r, rfl, hf, _⟩ := h
  obtain ⟨d, l', rfl, hd⟩ := fits_head he hm hf
  simp only [List.flatten_cons, List.cons_append, List.cons.injEq] at hc
  rw [hc.1] at hd
  exact hd

/-- All texts but the last are determined. -/
private theorem slot_text {e e' : Slot} {es : List Slot} (he' : e'.Ok) (hto : SlotsEnded (e :: e' :: es)) {w w' : List Int} {ws ws' : List (List Int)} {rest rest' : List Int}
    (hw : e.Fits w) (hw' : e.Fits w') (hws : Fill (e' :: es) ws) (hws' : Fill (e' :: es) ws') (heq : w ++ (ws.flatten ++ rest) = w' ++ (ws'.flatten ++ rest')) :
    w = w' ∧ ws.flatten ++ rest = ws'.flatten ++ rest' := by
  have hc := ended_head hto
  cases e with
  | words k vs =>
    have hm := hc.1 e' rfl
    have := word_once hc.2 hw hw' (fun c t ht => fill_starts he' hm hws ht) (fun c t ht => fill_starts he' hm hws' ht) heq
    subst this
    exact ⟨rfl, List.append_cancel_left heq⟩
  | piece p =>
    by_cases hfx : p.times.fixed = true
    · refine List.append_inj heq ?_
      have hh : p.times.hi = some p.times.lo := by
        cases hk : p.times <;> simp [hk, Quant.fixed] at hfx <;> simp [Quant.hi, Quant.lo]
      have a1 := hw.1
      have a2 := hw.2.1 _ hh
      have a3 := hw'.1
      have a4 := hw'.2.1 _ hh
      omega
    · obtain ⟨h1, h2⟩ := Or.resolve_left hc hfx
      have hend : ∀ (vs : List (List Int)) (r : List Int), Fill (e' :: es) vs → ∀ c, (vs.flatten ++ r).head? = some c → p.what.set c = false := by
        intro vs r hv c hcc
        obtain ⟨t, ht⟩ : ∃ t, vs.flatten ++ r = c :: t := by
          cases hl : vs.flatten ++ r with
          | nil => rw [hl] at hcc; simp at hcc
          | cons d t => rw [hl, List.head?_cons, Option.some.injEq] at hcc; exact ⟨t, by rw [hcc]⟩
        have hn := fill_starts he' (plain_must h1) hv ht
        cases hpc : p.what.set c with
        | false => rfl
        | true => rw [h2 c hpc] at hn; cases hn
      exact same_run heq hw.2.2 hw'.2.2 (hend ws rest hws) (hend ws' rest' hws')

private theorem all_but_last : ∀ (es : List Slot), (∀ e ∈ es, e.Ok) → SlotsEnded es → ∀ (ws ws' : List (List Int)) (rest rest' : List Int), Fill es ws → Fill es ws' →
    ws.flatten ++ rest = ws'.flatten ++ rest' → ws.dropLast = ws'.dropLast
  | [], _, _, _, _, _, _, rfl, rfl, _ => rfl
  | [e], _, _, ws1, ws2, rest, rest', hf1, hf2, heq => by
    obtain ⟨w, ws, rfl, hw, rfl⟩ := hf1
    obtain ⟨w', ws', rfl, hw', rfl⟩ := hf2
    rfl
  | e :: e' :: es, hok, hto, ws1, ws2, rest, rest', hf1, hf2, heq => by
    obtain ⟨w, ws, rfl, hw, hws⟩ := hf1
    obtain ⟨w', ws', rfl, hw', hws'⟩ := hf2
    simp only [List.flatten_cons, List.append_assoc] at heq
    obtain ⟨rfl, key⟩ := slot_text (hok e' (by simp)) hto hw hw' hws hws' heq
    have ih := all_but_last (e' :: es) (fun e0 he0 => hok e0 (List.mem_cons_of_mem _ he0)) (ended_tail hto) ws ws' rest rest' hws hws' key
    obtain ⟨v, vs, rfl, _⟩ := hws
    obtain ⟨v', vs', rfl, _⟩ := hws'
    rw [List.dropLast_cons_cons, List.dropLast_cons_cons, ih]

/-- The lengths of the texts for the place, in the order of preference. -/
private def lens (q : List Int) (x : Nat) : Slot → List Nat
  | .piece p => p.times.counts (runLen p.what.set (q.drop x))
  | .words _ ws => ws.flatMap (fun v => if v.isPrefixOf (q.drop x) then [v.length] else [])

private theorem slot_caps {e : Slot} (he : e.Ok) (q : List Int) (s : Sq) (x : Nat) : caps q (slotSq e s) x =
    (lens q x e).flatMap (fun n => (caps q s (x + n)).map (fun r => (r.1, if e.kept then (x, x + n) :: r.2 else r.2))) := by
  cases e with
  | piece p => exact piece_caps he q s x
  | words k ws =>
    cases ws with
    | nil => exact absurd rfl he.1
    | cons w ws =>
      simp only [slotSq, words_caps, lens, List.flatMap_assoc, Slot.kept]
      refine congrArg (fun f => (w :: ws).flatMap f) (funext fun v => ?_)
      cases k <;> cases v.isPrefixOf (q.drop x) <;> simp

private theorem mem_lens {e : Slot} (he : e.Ok) {q : List Int} {x n : Nat} (h : n ∈ lens q x e) : ∃ w l, q.drop x = w ++ l ∧ w.length = n ∧ e.Fits w := by
  cases e with
  | piece p => exact (fits_counts (piece_atom he).2.2.1).1 h
  | words k ws =>
    obtain ⟨v, hv, h⟩ := List.mem_flatMap.1 h
    split at h
    · rename_i hp
      obtain ⟨l, hl⟩ := List.isPrefixOf_iff_prefix.1 hp
      exact ⟨v, l, hl.symm, (List.mem_singleton.1 h).symm, hv⟩
    · simp at h

private theorem head_max {k : Quant} (hm : k.mode = .greedy) {r n0 : Nat} (h : (k.counts r).head? = some n0) : ∀ n ∈ k.counts r, n ≤ n0 := by
  simp only [Quant.counts, hm] at h ⊢
  rw [List.head?_reverse] at h
  intro n hn
  rw [List.mem_reverse] at hn
  rw [List.getLast?_range'] at h
  split at h
  · cases h
  · simp only [Option.some.injEq] at h
    rw [List.mem_range'_1] at hn
    omega

private theorem words_max {l : List Int} : ∀ (ws : List (List Int)), ws.Pairwise (fun w w' => ¬ w <+: w') → ∀ n0,
    (ws.flatMap (fun v => if v.isPrefixOf l then [v.length] else [])).head? = some n0 → ∀ n ∈ ws.flatMap (fun v => if v.isPrefixOf l then [v.length] else []), n ≤ n0
  | [], _, _, _, n, hn => by simp at hn
  | w :: ws, h, n0, h0, n, hn => by
    rw [List.pairwise_cons] at h
    rw [List.flatMap_cons] at h0 hn
    by_cases hp : w.isPrefixOf l = true
    · simp only [hp, if_true, List.singleton_append, List.head?_cons, Option.some.injEq, List.mem_cons] at h0 hn
      subst h0
      rcases hn with rfl | hn
      · exact Nat.le_refl _
      · obtain ⟨v, hv, hn⟩ := List.mem_flatMap.1 hn
        split at hn
        · rename_i hq
          rw [List.mem_singleton.1 hn]
          rcases List.prefix_or_prefix_of_prefix (List.isPrefixOf_iff_prefix.1 hp) (List.isPrefixOf_iff_prefix.1 hq) with hx | hx
          · exact absurd hx (h.1 v hv)
          · exact hx.length_le
        · simp at hn
    · simp only [hp, Bool.false_eq_true, if_false, List.nil_append] at h0 hn
      exact words_max ws h.2 n0 h0 n hn

private theorem lens_max {e : Slot} (he : e.Ok) (hto : SlotsEnded [e]) {q : List Int} {x n0 : Nat} (h : (lens q x e).head? = some n0) : ∀ n ∈ lens q x e, n ≤ n0 := by
  cases e with
  | piece p => exact head_max (piece_atom he).2.2.1 h
  | words k ws => exact words_max ws hto n0 h

private theorem first_longest (q : List Int) : ∀ (es : List Slot), (∀ e ∈ es, e.Ok) → SlotsEnded es → ∀ (x : Nat) r0, (caps q (formSq false es) x).head? = some r0 →
    ∀ r ∈ caps q (formSq false es) x, r.1 ≤ r0.1
  | [], _, _, x, r0, h, r, hr => by
    simp [formSq, caps, Sq.picks] at h hr
    subst h hr
    simp
  | [e], hok, hto, x, r0, h, r, hr => by
    have he := hok e (by simp)
    rw [formSq, slot_caps he] at h hr
    simp only [formSq, caps, Sq.picks, List.map_cons, List.map_nil, ← List.map_eq_flatMap] at h hr
    rw [List.head?_map] at h
    cases hh : (lens q x e).head? with
    | none => rw [hh] at h; cases h
    | some n0 =>
      rw [hh] at h
      simp only [Option.map_some, Option.some.injEq] at h
      subst h
      obtain ⟨n, hn, rfl⟩ := List.mem_map.1 hr
      have := lens_max he hto hh n hn
      simp only; omega
  | e :: e' :: es, hok, hto, x, r0, h, r, hr => by
    have he := hok e (by simp)
    have hok' : ∀ e'' ∈ e' :: es, e''.Ok := fun e'' he'' => hok e'' (List.mem_cons_of_mem _ he'')
    rw [formSq, slot_caps he] at h hr
    rw [List.head?_flatMap] at h
    obtain ⟨n0, hn0, hh⟩ := List.exists_of_findSome?_eq_some h
    obtain ⟨n, hn, hr⟩ := List.mem_flatMap.1 hr
    rw [List.head?_map] at hh
    cases hc : (caps q (formSq false (e' :: es)) (x + n0)).head? with
    | none => rw [hc] at hh; cases hh
    | some s0 =>
      rw [hc] at hh
      simp only [Option.map_some, Option.some.injEq] at hh
      subst hh
      obtain ⟨s, hs, rfl⟩ := List.mem_map.1 hr
      obtain ⟨w0, l0, e0, rfl, f0⟩ := mem_lens he hn0
      obtain ⟨w, l, e1, rfl, f⟩ := mem_lens he hn
      obtain ⟨vs0, t0, g0, d0, _⟩ := (mem_slots q _ hok' _ _).1 (List.mem_of_mem_head? hc)
      obtain ⟨vs, t, g, d, _⟩ := (mem_slots q _ hok' _ _).1 hs
      rw [← List.drop_drop, e0, List.drop_left] at d0
      rw [← List.drop_drop, e1, List.drop_left] at d
      have := slot_text (hok' e' (by simp)) hto f0 f g0 g (rest := t0) (rest' := t) (by rw [← d0, ← d, ← e0, ← e1])
      obtain ⟨rfl, _⟩ := this
      exact first_longest q (e' :: es) hok' (ended_tail hto) _ _ hc s hs

/-! ## the condition -/

private theorem slot_voids {e : Slot} (he : e.Ok) (hm : e.must = true) (s : Sq) : (slotSq e s).voids = false := by
  cases e with
  | piece p =>
    have hm : (p.times.lo == 0) = false := by simpa [Slot.must] using hm
    have hg := not_group (piece_atom he).2.2.2.1
    cases hk : p.kept with
    | true =>
      simp only [slotSq, pieceSq, hk, if_true, Sq.voids, Alts.list, List.any_cons, List.any_nil, Sq.nullable, hm]
      simp [Quant.lo]
    | false =>
      simp only [slotSq, pieceSq, hk, Bool.false_eq_true, if_false]
      cases hw : p.what <;> first | exact absurd hw (hg _ _) | simp [Sq.voids, hm]
  | words k ws =>
    cases ws with
    | nil => exact absurd rfl he.1
    | cons w ws =>
      have hn : (choice w ws).list.any Sq.nullable = false := by
        rw [choice_list, List.any_eq_false]
        intro b hb
        obtain ⟨v, hv, rfl⟩ := List.mem_map.1 hb
        cases v with
        | nil => exact absurd rfl (he.2 _ hv).1
        | cons c v => simp [plain, Sq.nullable, Quant.lo]
      simp [slotSq, Sq.voids, hn, Quant.lo]

private theorem slots_capOk : ∀ (es : List Slot), (∀ e ∈ es, e.Ok) → SlotsEnded es → (formSq false es).capOk = true
  | [], _, _ => rfl
  | e :: es, h, hto => by
    have h' : ∀ e ∈ es, e.Ok := fun e' he' => h e' (List.mem_cons_of_mem _ he')
    have ih := slots_capOk es h' (ended_tail hto)
    have he := h e (by simp)
    cases e with
    | words k ws =>
      cases ws with
      | nil => exact absurd rfl he.1
      | cons w ws =>
        refine words_capOk he.2 ih ?_
        cases es with
        | nil => exact Or.inl rfl
        | cons e' es =>
          have hc := ended_head hto
          have hm := hc.1 e' rfl
          exact Or.inr (apart_of (slot_voids (h' e' (by simp)) hm _) (fun x hx => (slot_begins (h' e' (by simp)) (formSq false es) x).1 hm hx) _ hc.2)
    | piece p =>
      refine piece_capOk he ih ?_
      cases es with
      | nil =>
        by_cases hfx : p.times.fixed = true
        · exact Or.inl hfx
        · exact Or.inr ⟨by simp [formSq, Sq.voids], Or.inl (not_meets (fun x _ h7 => by simp [formSq, Sq.looks] at h7))⟩
      | cons e' es =>
        rcases ended_head hto with hc | ⟨hc1, hc2⟩
        · exact Or.inl hc
        · have hb := slot_begins (h' e' (by simp)) (formSq false es)
          by_cases hfx : p.times.fixed = true
          · exact Or.inl hfx
          · have h5 := (piece_atom he).2.2.2.2.resolve_left hfx
            refine Or.inr ⟨voids_or (fun x h6 h7 => ?_), Or.inl (not_meets (fun x h6 h7 => ?_))⟩
            · have := (hb x).1 (plain_must hc1) h7
              rw [hc2 x h6] at this; cases this
            · have := (hb x).2 hc1 h7
              rw [hc2 x (shown_set h5 h6)] at this; cases this

private theorem firm_solid {e : Slot} (he : e.Ok) (h : e.Firm) (s : Sq) : (slotSq e s).solid = true := by
  cases e with
  | piece p =>
    obtain ⟨h1, h2, h3⟩ := h
    simp only [slotSq, pieceSq, h1, h2, Bool.false_eq_true, if_false]
    cases hw : p.what <;> rw [hw] at h3 <;> first | (simp [Atom.steady] at h3; done) | simpa [Sq.solid] using h3
  | words k ws =>
    have h : k = false := h
    subst h
    cases ws with
    | nil => exact absurd rfl he.1
    | cons w ws =>
      simp only [slotSq, Sq.solid, choice_list, Bool.not_false, Bool.true_and, List.all_eq_true]
      intro b hb
      obtain ⟨v, hv, rfl⟩ := List.mem_map.1 hb
      cases v with
      | nil => exact absurd rfl (he.2 _ hv).1
      | cons c v => rfl

private theorem slots_front {es : List Slot} (hok : ∀ e ∈ es, e.Ok) (h : SlotsFront es) : (formSq false es).solid = true ∨ (formSq false es).startsLoop = true := by
  have loop : ∀ (p : Piece) (s : Sq), p.what.steady = true → (p.kept = true → p.times.fixed = false) → (s.voids = true ∨ (p.times.hi = none ∧ s.solid = true)) →
      (pieceSq p s).startsLoop = true := by
    intro p s h1 h2 h3
    have hb : (s.voids || (p.times.hi == none && s.solid)) = true := by
      rcases h3 with h3 | ⟨h3, h4⟩ <;> simp [*]
    cases hk : p.kept with
    | true => simp only [pieceSq, hk, if_true, Sq.startsLoop, h1, h2 hk, hb]; rfl
    | false =>
      simp only [pieceSq, hk, Bool.false_eq_true, if_false]
      cases hw : p.what <;> rw [hw] at h1 <;> first | (simp [Atom.steady] at h1; done) | (simp only [Sq.startsLoop, h1, hb]; rfl)
  match es, hok, h with
  | [.piece p], _, h => exact Or.inr (loop p _ h.1 h.2 (Or.inl rfl))
  | [.words k ws], hok, h => exact Or.inl (firm_solid (e := .words k ws) (hok _ (by simp)) h _)
  | .piece p :: e :: es, hok, Or.inl h => exact Or.inl (firm_solid (e := .piece p) (hok _ (by simp)) h _)
  | .piece p :: e :: es, hok, Or.inr ⟨h1, h2, h3⟩ =>
    refine Or.inr (loop p _ h1 (fun _ => ?_) (Or.inr ⟨h2, firm_solid (hok e (by simp)) h3 _⟩))
    cases hk : p.times <;> simp [hk, Quant.hi] at h2 <;> rfl
  | .words k ws :: e :: es, hok, h => exact Or.inl (firm_solid (e := .words k ws) (hok _ (by simp)) h _)

private theorem slots_regular {es : List Slot} (h : ∀ e ∈ es, e.Ok) (hto : SlotsEnded es) (hn : SlotsNumbered es) (hfr : SlotsFront es) :
    (Alts.last false (formSq false es)).capRegular = true := by
  have he : (formSq false es).empty = false := by
    cases es with
    | nil => exact absurd hfr (by simp [SlotsFront])
    | cons e es =>
      have he := h e (by simp)
      cases e with
      | piece p => cases hk : p.kept <;> simp [formSq, slotSq, pieceSq, hk, Sq.empty]
      | words k ws =>
        cases ws with
        | nil => exact absurd rfl he.1
        | cons w ws => simp [formSq, slotSq, Sq.empty]
  simp [Alts.capRegular, Alts.capSane, slots_capOk es h hto, form_tidy es h hn, he, slots_front h hfr]

private theorem slots_spell : ∀ es : List Slot, (∀ e ∈ es, e.Ok) → (formSq false es).spell = slotsSpell es
  | [], _ => by simp [formSq, Sq.spell, slotsSpell]
  | e :: es, h => by
    have ih := slots_spell es (fun e' he' => h e' (List.mem_cons_of_mem _ he'))
    have he := h e (by simp)
    simp only [slotsSpell] at ih
    cases e with
    | piece p =>
      cases hk : p.kept <;> simp [formSq, slotSq, pieceSq, hk, Sq.spell, Alts.spell, Atom.spell, Quant.spell, Slot.spell, Piece.spell, slotsSpell, ih]
    | words k ws =>
      cases ws with
      | nil => exact absurd rfl he.1
      | cons w ws => cases k <;> simp [formSq, slotSq, Sq.spell, Atom.spell, Quant.spell, choice_spell, Slot.spell, slotsSpell, ih]

private theorem slots_count : ∀ (es : List Slot), (∀ e ∈ es, e.Ok) → (formSq false es).count = (es.filter Slot.kept).length ∧ (formSq false es).dollar = false
  | [], _ => ⟨rfl, rfl⟩
  | e :: es, h => by
    obtain ⟨ih, ihd⟩ := slots_count es (fun e' he' => h e' (List.mem_cons_of_mem _ he'))
    have he := h e (by simp)
    cases e with
    | piece p =>
      have hg := not_group (piece_atom he).2.2.2.1
      have hc : p.what.count = 0 := by
        cases hw : p.what <;> first | exact absurd hw (hg _ _) | rfl
      cases hk : p.kept with
      | true =>
        simp [formSq, slotSq, pieceSq, hk, Sq.count, Atom.count, Alts.count, hc, Slot.kept, ih, Sq.dollar, ihd]; omega
      | false => simp [formSq, slotSq, pieceSq, hk, Sq.count, hc, Slot.kept, ih, Sq.dollar, ihd]
    | words k ws =>
      cases ws with
      | nil => exact absurd rfl he.1
      | cons v ws =>
        cases k <;> simp [formSq, slotSq, Sq.count, Atom.count, choice_no_groups, List.filter_cons, Slot.kept, ih, Sq.dollar, ihd]
        omega

/-- **C76.** Searching for a form: for every list of places (pieces as in C71 or words as in C74) in which it is clear where the text of each place but the last ends, that begins with
a single character or words in `(?:…)`, or with a repetition without upper bound and then one of these, and in which some place must take a character: matching, `next()` and a
range-for report, from left to right and without overlap, the texts in the query that have the form: `g q x` is what is found at offset `x`. It is nothing only if no text that
begins there has the form; otherwise it is the longest that begins there; any two such texts are taken apart in the same way, but for the last place; and the groups are the texts
of the places in capturing parentheses. -/
theorem C76_search (es : List Slot) (hok : ∀ e ∈ es, e.Ok) (hto : SlotsEnded es) (hn : SlotsNumbered es) (hfr : SlotsFront es) (hex : ∃ e ∈ es, e.must = true)
    (hc : ∀ c ∈ slotsSpell es, c ∈ allChars) :
    ∃ g : List Int → Nat → Option (Nat × Caps), FindsGroups (slotsSpell es) (es.filter Slot.kept).length false g ∧
      ∀ q x, (g q x = none → ∀ ts rest, Fill es ts → q.drop x ≠ ts.flatten ++ rest) ∧
        ∀ w, g q x = some w → ∃ ts rest, Fill es ts ∧ q.drop x = ts.flatten ++ rest ∧ w.1 = x + ts.flatten.length ∧ (∀ k, w.2 k = (spots es ts x)[k]?) ∧
          ∀ ts' rest', Fill es ts' → q.drop x = ts'.flatten ++ rest' → ts'.dropLast = ts.dropLast ∧ ts'.flatten.length ≤ ts.flatten.length := by
  have hsp : (Alts.last false (formSq false es)).spell = slotsSpell es := by simp [Alts.spell, slots_spell es hok]
  have hr := slots_regular hok hto hn hfr
  have hf := C50_groups_partial (.last false (formSq false es)) hr (by rw [hsp]; exact hc) (by simpa [Alts.takes, Alts.list] using form_takes es hok hex)
  have hcount : (Alts.last false (formSq false es)).count = (es.filter Slot.kept).length := by simp [Alts.count, (slots_count es hok).1]
  have hdol : (Alts.last false (formSq false es)).dollar = false := by simp [Alts.dollar, (slots_count es hok).2]
  rw [hsp, hcount, hdol] at hf
  refine ⟨_, hf, fun q x => ?_⟩
  have hbest : bestWay (.last false (formSq false es)) q x = ((caps q (formSq false es) x).head?).map (fun r => (r.1, fill noCaps 0 r.2)) := by
    rw [bestWay]
    simp only [Alts.ways, Bool.false_and, Bool.false_eq_true, if_false]
    rw [ways_caps _ (capOk_shallow _ (slots_capOk es hok hto)), List.head?_map]
  rw [hbest]
  constructor
  · intro hnone ts rest h1 h2
    simp only [Option.map_eq_none_iff, List.head?_eq_none_iff] at hnone
    have := (mem_slots q es hok x _).2 ⟨ts, rest, h1, h2, rfl⟩
    rw [hnone] at this; simp at this
  · intro w hw
    cases hh : (caps q (formSq false es) x).head? with
    | none => rw [hh] at hw; simp at hw
    | some r =>
      rw [hh] at hw
      simp only [Option.map_some, Option.some.injEq] at hw
      subst hw
      obtain ⟨ts, rest, g1, g2, rfl⟩ := (mem_slots q es hok x r).1 (List.mem_of_mem_head? hh)
      refine ⟨ts, rest, g1, g2, rfl, fun k => ?_, fun ts' rest' h1 h2 => ⟨?_, ?_⟩⟩
      · simp only [fill_get (spots es ts x) 0 k noCaps (fun _ _ => rfl) (Nat.zero_le _), Nat.sub_zero]
      · exact all_but_last es hok hto ts' ts rest' rest h1 g1 (h2.symm.trans g2)
      · have := first_longest q es hok hto x _ hh _ ((mem_slots q es hok x _).2 ⟨ts', rest', h1, h2, rfl⟩)
        simp only at this; omega

/-- **C76 is false of forms that begin with words in a capturing group**: `ax` in `aaax` is `a` or `b` and `x`, and `(a|b)x` does not find it (`(?:a|b)x` does). -/
theorem C76_refuted_captured : (build (str "(a|b)x")).map (fun b => ends (str "aaax") (toRx b) 2) = some [4] ∧ m "(a|b)x" "aaax" = none ∧
    m "(?:a|b)x" "aaax" = some [some "ax"] := by decide +kernel

/-- **C76 is false, as to the longest text, of words at the end one of which is a prefix of a later one**: `#(no|none)` reports `#no` in `#none`. -/
theorem C76_refuted_shorter : (build (str "#(no|none)")).map (fun b => ends (str "#none") (toRx b) 0) = some [3, 5] ∧ m "#(no|none)" "#none" = some [some "#no", some "no"] := by
  decide +kernel

end ERegex.Props

import Verif.Props.Choice
import Verif.Spec.Form
/-!
# C75 : checking that a query has a format with places that are taken by one of several words
-/
set_option autoImplicit false
namespace ERegex.Props
open ERegex ERegex.Spec
open ERegex.Conformance (lit m)

/-! ## forms that meet the conditions -/

private def chr (c : Char) : Slot := .piece ⟨false, .chr c.toNat, .once⟩
private def digits (n : Char) : Slot := .piece ⟨true, .esc 100, .exact [n.toNat] .greedy⟩
/-- `^(\d+)(px|em|%)$` -/
private def length : List Slot := [.piece ⟨true, .esc 100, .plus .greedy⟩, .words true [str "px", str "em", str "%"]]
/-- `^(Mon|Tue|Wed), (\d{2}) (Jan|Feb|Mar) (\d{4})$` -/
private def day : List Slot := [.words true [str "Mon", str "Tue", str "Wed"], chr ',', chr ' ', digits '2', chr ' ', .words true [str "Jan", str "Feb", str "Mar"], chr ' ', digits '4']
/-- `^(?:https|http)://(\w+)\.(com|org)$` -/
private def link : List Slot := [.words false [str "https", str "http"], chr ':', chr '/', chr '/', .piece ⟨true, .esc 119, .plus .greedy⟩, .piece ⟨false, .esc 46, .once⟩,
  .words true [str "com", str "org"]]

example : formSpell length = str "^(\\d+)(px|em|%)$" ∧ formSpell day = str "^(Mon|Tue|Wed), (\\d{2}) (Jan|Feb|Mar) (\\d{4})$" ∧
    formSpell link = str "^(?:https|http)://(\\w+)\\.(com|org)$" := by decide +kernel
private instance (e : Slot) : Decidable e.Ok := by cases e <;> (simp only [Slot.Ok]; infer_instance)
private instance (es : List Slot) : Decidable (SlotsNumbered es) := by unfold SlotsNumbered; infer_instance
private def FormOk (es : List Slot) : Prop := (∀ e ∈ es, e.Ok) ∧ SlotsNumbered es ∧ (∃ e ∈ es, e.must = true) ∧ ∀ c ∈ formSpell es, c ∈ allChars
private instance (es : List Slot) : Decidable (FormOk es) := by unfold FormOk; infer_instance
example : FormOk length ∧ FormOk day ∧ FormOk link := by decide +kernel
private theorem clear_words {k : Bool} {ws : List (List Int)} {es : List Slot} (hm : ∀ e, es.head? = some e → e.must = true)
    (h : ws.Pairwise (fun w w' => w.isPrefixOf w' = false ∧ (w'.isPrefixOf w = false ∨ ∀ c, (w.drop w'.length).head? = some c → upNext es c = false))) :
    (Slot.words k ws).ClearOf es := by
  refine ⟨hm, h.imp fun {w w'} h => ⟨fun hp => ?_, fun c r e => ?_⟩⟩
  · rw [List.isPrefixOf_iff_prefix.2 hp] at h; cases h.1
  · rcases h.2 with h | h
    · rw [List.isPrefixOf_iff_prefix.2 ⟨_, e.symm⟩] at h; cases h
    · exact h c (by rw [e, List.drop_left]; rfl)
example : AllClear length := by
  refine ⟨Or.inr ⟨rfl, fun c hc => ?_⟩, clear_words (by simp) (by decide +kernel), trivial⟩
  have h1 : c ≠ 112 := by rintro rfl; revert hc; decide
  have h2 : c ≠ 101 := by rintro rfl; revert hc; decide
  have h3 : c ≠ 37 := by rintro rfl; revert hc; decide
  simp [Slot.starts, str]; omega
example : AllClear day := by
  refine ⟨clear_words (by simp [chr, Slot.must, Quant.lo]) (by simp; decide +kernel), Or.inl rfl, Or.inl rfl, Or.inl rfl, Or.inl rfl,
    clear_words (by simp [chr, Slot.must, Quant.lo]) (by simp; decide +kernel), Or.inl rfl, Or.inl rfl, trivial⟩
example : AllClear link := by
  refine ⟨clear_words (by simp [chr, Slot.must, Quant.lo]) (by simp; decide +kernel), Or.inl rfl, Or.inl rfl, Or.inl rfl, Or.inr ⟨rfl, fun c hc => ?_⟩, Or.inl rfl,
    clear_words (by simp) (by simp; decide +kernel), trivial⟩
  have h1 : c ≠ 46 := by rintro rfl; revert hc; decide
  simpa [Slot.starts, Atom.set, escape] using h1
example : Filled length (str "12em") [str "12", str "em"] [] ∧ spots length [str "12", str "em"] 0 = [(0, 2), (2, 4)] := by
  refine ⟨⟨⟨_, _, rfl, ⟨by decide, by simp [Quant.hi], by decide⟩, _, _, rfl, ?_, rfl⟩, by decide, Or.inl rfl⟩, by decide⟩
  show str "em" ∈ _
  decide
example : m "^(\\d+)(px|em|%)$" "12em" = some [some "12em", some "12", some "em"] ∧ m "^(\\d+)(px|em|%)$" "12ex" = none ∧
    m "^(?:https|http)://(\\w+)\\.(com|org)$" "http://x.org" = some [some "http://x.org", some "x", some "org"] := by decide +kernel

/-! ## the expression -/

def slotSq : Slot → Sq → Sq
  | .piece p, s => pieceSq p s
  | .words _ [], s => s
  | .words k (w :: ws), s => .cons (.group k (choice w ws)) .once s

/-- the places, `$` behind them if `d` -/
def formSq (d : Bool) : List Slot → Sq
  | [] => .nil d
  | e :: es => slotSq e (formSq d es)

private theorem form_spell : ∀ es : List Slot, (∀ e ∈ es, e.Ok) → (formSq true es).spell = (es.map Slot.spell).flatten ++ [36]
  | [], _ => by simp [formSq, Sq.spell]
  | e :: es, h => by
    have ih := form_spell es (fun e' he' => h e' (List.mem_cons_of_mem _ he'))
    have he := h e (by simp)
    cases e with
    | piece p =>
      cases hk : p.kept <;> simp [formSq, slotSq, pieceSq, hk, Sq.spell, Alts.spell, Atom.spell, Quant.spell, Slot.spell, Piece.spell, ih]
    | words k ws =>
      cases ws with
      | nil => exact absurd rfl he.1
      | cons w ws => cases k <;> simp [formSq, slotSq, Sq.spell, Atom.spell, Quant.spell, choice_spell, Slot.spell, ih]

/-! ## the matches -/

theorem words_caps (k : Bool) (w : List Int) (ws : List (List Int)) (q : List Int) (s : Sq) (x : Nat) : caps q (.cons (.group k (choice w ws)) .once s) x =
    (((w :: ws).flatMap (fun v => if v.isPrefixOf (q.drop x) then [x + v.length] else []))).flatMap
      (fun e => (caps q s e).map (fun r => (r.1, if k then (x, e) :: r.2 else r.2))) := by
  rw [caps_once, choice_picks]
  congr 1
  exact congrArg (fun f => (w :: ws).flatMap f) (funext fun v => plain_picks q v x)

/-- One place and what follows it. -/
theorem mem_slot {e : Slot} (he : e.Ok) (q : List Int) (s : Sq) (x : Nat) (r : Nat × List (Nat × Nat)) : r ∈ caps q (slotSq e s) x ↔
    ∃ w l, q.drop x = w ++ l ∧ e.Fits w ∧ ∃ r' ∈ caps q s (x + w.length), r = (r'.1, if e.kept then (x, x + w.length) :: r'.2 else r'.2) := by
  cases e with
  | piece p =>
    have hp : p.ok = true := he
    simp only [slotSq, piece_caps hp, List.mem_flatMap, List.mem_map, fits_counts (piece_atom hp).2.2.1]
    constructor
    · rintro ⟨n, ⟨w, l, hl, rfl, hf⟩, r', hr', rfl⟩
      exact ⟨w, l, hl, hf, r', hr', rfl⟩
    · rintro ⟨w, l, hl, hf, r', hr', rfl⟩
      exact ⟨w.length, ⟨w, l, hl, rfl, hf⟩, r', hr', rfl⟩
  | words k ws =>
    cases ws with
    | nil => exact absurd rfl he.1
    | cons w ws =>
      simp only [slotSq, words_caps, List.mem_flatMap, List.mem_map]
      constructor
      · rintro ⟨n, ⟨v, hv, hn⟩, r', hr', rfl⟩
        split at hn
        · rename_i hp
          simp only [List.mem_singleton] at hn
          subst hn
          obtain ⟨l, hl⟩ := List.isPrefixOf_iff_prefix.1 hp
          exact ⟨v, l, hl.symm, hv, r', hr', rfl⟩
        · simp at hn
      · rintro ⟨v, l, hl, hv, r', hr', rfl⟩
        have hp : v.isPrefixOf (q.drop x) = true := List.isPrefixOf_iff_prefix.2 ⟨l, hl.symm⟩
        exact ⟨x + v.length, ⟨v, hv, by simp [hp]⟩, r', hr', rfl⟩

private theorem mem_form (q : List Int) : ∀ (es : List Slot), (∀ e ∈ es, e.Ok) → ∀ (x : Nat), x ≤ q.length → ∀ r,
    r ∈ caps q (formSq true es) x ↔ ∃ ts rest, Fill es ts ∧ q.drop x = ts.flatten ++ rest ∧ (rest = [] ∨ rest.head? = some 10) ∧
      r = (endAt x ts rest, spots es ts x)
  | [], _, x, hx, r => by
    have := mem_caps q [] (by simp) x hx r
    simpa [formSq, formatSq, Fill, AllFit, spots, places] using this
  | e :: es, h, x, hx, r => by
    have ih := mem_form q es (fun e' he' => h e' (List.mem_cons_of_mem _ he'))
    rw [formSq, mem_slot (h e (by simp))]
    constructor
    · rintro ⟨w, l, hl, hf, r', hr', rfl⟩
      have hlen : x + w.length ≤ q.length := by
        have := congrArg List.length hl
        simp only [List.length_drop, List.length_append] at this; omega
      have hd : q.drop (x + w.length) = l := by
        rw [← List.drop_drop, hl]; simp
      obtain ⟨ts, rest, h1, h2, h3, rfl⟩ := (ih _ hlen _).1 hr'
      refine ⟨w :: ts, rest, ⟨w, ts, rfl, hf, h1⟩, ?_, h3, ?_⟩
      · rw [hl, ← hd, h2]; simp
      · simp only [spots, endAt, List.flatten_cons, List.length_append]
        rw [show x + (w.length + ts.flatten.length) = x + w.length + ts.flatten.length by omega]
    · rintro ⟨ts', rest, ⟨w, ts, rfl, hf, h1⟩, h2, h3, rfl⟩
      simp only [List.flatten_cons, List.append_assoc] at h2
      have hlen : x + w.length ≤ q.length := by
        have := congrArg List.length h2
        simp only [List.length_drop, List.length_append] at this; omega
      have hd : q.drop (x + w.length) = ts.flatten ++ rest := by
        rw [← List.drop_drop, h2]; simp
      refine ⟨w, _, h2, hf, _, (ih _ hlen _).2 ⟨ts, rest, h1, hd, h3, rfl⟩, ?_⟩
      simp only [spots, endAt, List.flatten_cons, List.length_append]
      rw [show x + (w.length + ts.flatten.length) = x + w.length + ts.flatten.length by omega]

/-! ## the condition -/

private theorem word_first {v : List Int} (hv : v ≠ []) (x : Int) : ((plain v).first x = true → v.head? = some x) ∧ ((plain v).shown x = true → v.head? = some x) ∧
    (plain v).nullable = false := by
  cases v with
  | nil => exact absurd rfl hv
  | cons c v =>
    simp [plain, Sq.first, Sq.shown, Sq.nullable, Atom.set, Atom.shown, Quant.lo]
    exact fun h => h.symm

theorem slot_begins {e : Slot} (he : e.Ok) (s : Sq) (x : Int) :
    (e.must = true → (slotSq e s).begins x = true → e.starts x = true) ∧ (e.plain = true → (slotSq e s).looks x = true → e.starts x = true) := by
  cases e with
  | piece p =>
    have hp : p.ok = true := he
    refine ⟨fun hm h => ?_, fun hm h => ?_⟩
    · have hlo : p.times.lo ≠ 0 := by simpa [Slot.must] using hm
      exact (begins_format hp hlo s x).1 h
    · simp only [Slot.plain, Bool.and_eq_true, bne_iff_ne, ne_eq] at hm
      exact shown_set hm.2 ((begins_format hp hm.1 s x).2 h)
  | words k ws =>
    cases ws with
    | nil => exact absurd rfl he.1
    | cons w ws =>
      have hn : (choice w ws).list.any Sq.nullable = false := by
        rw [choice_list, List.any_eq_false]
        intro b hb
        obtain ⟨v, hv, rfl⟩ := List.mem_map.1 hb
        simp [(word_first (he.2 v hv).1 x).2.2]
      refine ⟨fun _ h => ?_, fun _ h => ?_⟩
      · simp only [slotSq, Sq.begins, hn, Quant.lo, Bool.or_eq_true, Bool.and_eq_true] at h
        rcases h with h | h
        · rw [choice_list, List.any_eq_true] at h
          obtain ⟨b, hb, h⟩ := h
          obtain ⟨v, hv, rfl⟩ := List.mem_map.1 hb
          simp only [Slot.starts, List.any_eq_true]
          exact ⟨v, hv, by simp [(word_first (he.2 v hv).1 x).1 h]⟩
        · simp at h
      · have hh : (choice w ws).head = plain w := by cases ws <;> rfl
        simp only [slotSq, Sq.looks, hh, Quant.lo, Bool.or_eq_true, Bool.and_eq_true] at h
        rcases h with h | h
        · simp only [Slot.starts, List.any_eq_true]
          exact ⟨w, by simp, by simp [(word_first (he.2 w (by simp)).1 x).2.1 h]⟩
        · simp at h

private theorem slot_voids {e : Slot} (he : e.Ok) {s : Sq} (hs : s.voids = false) : (slotSq e s).voids = false := by
  cases e with
  | piece p =>
    cases hk : p.kept with
    | true => simp [slotSq, pieceSq, hk, Sq.voids, hs]
    | false =>
      simp only [slotSq, pieceSq, hk, Bool.false_eq_true, if_false]
      cases hw : p.what <;> simp [Sq.voids, hs]
  | words k ws =>
    cases ws with
    | nil => exact absurd rfl he.1
    | cons w ws => simp [slotSq, Sq.voids, hs]

private theorem form_voids : ∀ (es : List Slot), (∀ e ∈ es, e.Ok) → (formSq true es).voids = false
  | [], _ => rfl
  | e :: es, h => slot_voids (h e (by simp)) (form_voids es (fun e' he' => h e' (List.mem_cons_of_mem _ he')))

private theorem sane_lo {k : Quant} (h : k.sane = true) : k.lo < 4294967296 := by
  cases k <;> simp_all [Quant.sane, Quant.ok, Quant.lo, boundB] <;> omega

/-- A piece in front of `s`. -/
theorem piece_capOk {p : Piece} (hp : p.ok = true) {s : Sq} (ih : s.capOk = true)
    (hcl : p.times.fixed = true ∨ ((s.voids || !meets p.what.set s.begins) = true ∧
      (meets p.what.shown s.looks = false ∨ (s.solid = true ∧ (p.times.lo == 0 && p.times.hi == some 1) = false)))) : (pieceSq p s).capOk = true := by
  obtain ⟨h1, h2, h3, h4, h5⟩ := piece_atom hp
  have hg := not_group h4
  cases hf : p.times.fixed with
  | true =>
    cases hk : p.kept with
    | true =>
      have hr := single_regular hp hf
      have hl := sane_lo h2
      have hset : settled s (.cons p.what p.times (.nil false)) = true := by simp [settled, h3, hf]
      simp only [pieceSq, hk, if_true, Sq.capOk, groupOk, hf, bodyOk, Alts.bare, Alts.list, List.all_cons, List.all_nil, hr, hset, headStill, ih]
      simp [Sq.dollar, Sq.empty, Sq.least, hl, Spec.apart]
    | false =>
      have ha : atomOk p.what p.times s = true := by simp [atomOk, h3, hf]
      simp only [pieceSq, hk, Bool.false_eq_true, if_false]
      cases hw : p.what <;> first | exact absurd hw (hg _ _) | (rw [hw] at h1 h4 ha; simp only [Sq.capOk, h1, h4, h2, ha, ih, Bool.and_self])
  | false =>
    rw [hf] at h5 hcl
    simp only [Bool.false_eq_true, false_or] at h5 hcl
    obtain ⟨r2, r1⟩ := hcl
    have hst := listing_steady h5
    cases hk : p.kept with
    | true =>
      have hl : loopOk p.what p.times s = true := by
        simp only [loopOk, h1, hst, h2, h3, r2]
        rcases r1 with r1 | ⟨_, r1⟩ <;> rw [r1] <;> simp
      simp only [pieceSq, hk, if_true, Sq.capOk, groupOk, hf, ih, hl]
      simp
    | false =>
      have ha : atomOk p.what p.times s = true := by
        simp only [atomOk, h3, hf, clings, r2, hst]
        rcases r1 with r1 | ⟨r0, r1⟩
        · rw [r1]; simp
        · rw [r1, r0]; simp
      simp only [pieceSq, hk, Bool.false_eq_true, if_false]
      cases hw : p.what <;> first | exact absurd hw (hg _ _) | (rw [hw] at h1 h4 ha; simp only [Sq.capOk, h1, h4, h2, ha, ih, Bool.and_self])

theorem apart_of {s : Sq} (hv : s.voids = false) {next : Int → Bool} (hn : ∀ x, s.begins x = true → next x = true) : ∀ (ws : List (List Int)),
    ws.Pairwise (fun w w' => ¬ w <+: w' ∧ ∀ c r, w = w' ++ c :: r → next c = false) → Spec.apart s (ws.map plain) = true
  | [], _ => rfl
  | w :: ws, h => by
    simp only [List.pairwise_cons] at h
    simp only [List.map_cons, Spec.apart, Bool.and_eq_true, List.all_eq_true, Bool.or_eq_true, List.mem_map]
    refine ⟨?_, apart_of hv hn ws h.2⟩
    rintro _ ⟨w', hw', rfl⟩
    obtain ⟨h1, h2⟩ := h.1 w' hw'
    refine Or.inr (words_part hv w w' h1 (fun c r hr x hx hxc => ?_))
    subst hxc
    have := hn x hx
    rw [h2 x r hr] at this; cases this

/-- Words in front of `s`. -/
theorem words_capOk {k : Bool} {w : List Int} {ws : List (List Int)} (hw : ∀ v ∈ w :: ws, v ≠ [] ∧ v.length < 4294967296 ∧ ∀ c ∈ v, plainB c = true) {s : Sq} (ih : s.capOk = true)
    (ha : s.voids = true ∨ Spec.apart s ((w :: ws).map plain) = true) : (Sq.cons (.group k (choice w ws)) .once s).capOk = true := by
  have hpl := fun v hv => plain_ok (hw v hv).1 (hw v hv).2.2
  have hempty : ∀ v : List Int, v ≠ [] → (plain v).empty = false := by
    intro v hv
    cases v with
    | nil => exact absurd rfl hv
    | cons c v => rfl
  have hhead : ∀ v : List Int, v ≠ [] → (plain v).steadyHead = true := by
    intro v hv
    cases v with
    | nil => exact absurd rfl hv
    | cons c v => rfl
  have hb : bodyOk k (choice w ws) s = true := by
    unfold bodyOk
    simp only [Bool.and_eq_true, Bool.or_eq_true]
    refine ⟨⟨⟨choice_bare w ws (fun v hv => (hpl v hv).2.2), ?_⟩, ha.imp id (fun ha => ⟨?_, ?_⟩)⟩, ?_⟩
    · rw [choice_list, List.all_eq_true]
      intro b hb
      obtain ⟨v, hv, rfl⟩ := List.mem_map.1 hb
      simp [plain_regular v (hw v hv).2.2, hempty v (hw v hv).1, plain_least, (hw v hv).2.1]
    · rw [choice_list, List.all_eq_true]
      intro b hb
      obtain ⟨v, hv, rfl⟩ := List.mem_map.1 hb
      exact (plain_still _ v).1
    · rw [choice_list]
      exact ha
    · have hall : (choice w ws).list.all (fun b => b.eats && b.steadyHead) = true := by
        rw [choice_list, List.all_eq_true]
        intro b hb
        obtain ⟨v, hv, rfl⟩ := List.mem_map.1 hb
        simp [(hpl v hv).2.1, hhead v (hw v hv).1]
      cases ws with
      | nil => cases k <;> simp [choice, (plain_still _ w).2, (hpl w (by simp)).2.1]
      | cons w' ws => exact hall
  simp only [Sq.capOk, choice_groupOk (hw w (by simp)).1 hb, ih, Bool.and_self]

private theorem form_next {es : List Slot} (h : ∀ e ∈ es, e.Ok) (hm : ∀ e, es.head? = some e → e.must = true) (x : Int) (hb : (formSq true es).begins x = true) : upNext es x = true := by
  cases es with
  | nil => simpa [formSq, Sq.begins, upNext] using hb
  | cons e es => exact (slot_begins (h e (by simp)) (formSq true es) x).1 (hm e rfl) hb

theorem plain_must {e : Slot} (h : e.plain = true) : e.must = true := by
  cases e with
  | piece p => simp only [Slot.plain, Bool.and_eq_true] at h; exact h.1
  | words => rfl

theorem voids_or {b : Bool} {f g : Int → Bool} (h : ∀ x, f x = true → g x = true → False) : (b || !meets f g) = true := by
  rw [not_meets h]; simp

private theorem form_capOk : ∀ (es : List Slot), (∀ e ∈ es, e.Ok) → AllClear es → (formSq true es).capOk = true
  | [], _, _ => rfl
  | e :: es, h, hcl => by
    have h' : ∀ e ∈ es, e.Ok := fun e' he' => h e' (List.mem_cons_of_mem _ he')
    have ih := form_capOk es h' hcl.2
    have he := h e (by simp)
    have hc := hcl.1
    cases e with
    | words k ws =>
      cases ws with
      | nil => exact absurd rfl he.1
      | cons w ws => exact words_capOk he.2 ih (Or.inr (apart_of (form_voids es h') (form_next h' hc.1) _ hc.2))
    | piece p =>
      refine piece_capOk he ih ?_
      cases es with
      | nil =>
        rcases hc with hc | ⟨hc1, hc2⟩
        · exact Or.inl hc
        · refine Or.inr ⟨voids_or (fun x h6 h7 => ?_), Or.inr ⟨rfl, ?_⟩⟩
          · simp only [formSq, Sq.begins, Bool.true_and, beq_iff_eq] at h7
            rw [h7, hc1] at h6; cases h6
          · rw [Bool.eq_false_iff]
            intro ho
            simp only [Bool.and_eq_true, beq_iff_eq] at ho
            exact hc2 ho.1 ho.2
      | cons e' es =>
        rcases hc with hc | ⟨hc1, hc2⟩
        · exact Or.inl hc
        · have hb := slot_begins (h' e' (by simp)) (formSq true es)
          by_cases hfx : p.times.fixed = true
          · exact Or.inl hfx
          · have h5 := (piece_atom he).2.2.2.2.resolve_left hfx
            refine Or.inr ⟨voids_or (fun x h6 h7 => ?_), Or.inl (not_meets (fun x h6 h7 => ?_))⟩
            · have := (hb x).1 (plain_must hc1) h7
              rw [hc2 x h6] at this; cases this
            · have := (hb x).2 hc1 h7
              rw [hc2 x (shown_set h5 h6)] at this; cases this

private theorem slot_tidy_none {e : Slot} (he : e.Ok) (hk : e.kept = false) {s : Sq} {n : Nat} (hs : ∀ g, s.tidy g n = true) (g : Nat) : (slotSq e s).tidy g n = true := by
  cases e with
  | piece p =>
    have hg := not_group (piece_atom he).2.2.2.1
    have hk : p.kept = false := hk
    simp only [slotSq, pieceSq, hk, Bool.false_eq_true, if_false]
    cases hw : p.what <;> first | exact absurd hw (hg _ _) | simp only [Sq.tidy, hs]
  | words k ws =>
    have hk : k = false := hk
    subst hk
    cases ws with
    | nil => exact absurd rfl he.1
    | cons w ws => simp only [slotSq, Sq.tidy, hs]

private theorem form_tidy_none {d : Bool} : ∀ (es : List Slot), (∀ e ∈ es, e.Ok) → (∀ e ∈ es, e.kept = false) → ∀ n g, (formSq d es).tidy g n = true
  | [], _, _, _, _ => rfl
  | e :: es, h, hk, n, g => slot_tidy_none (h e (by simp)) (hk e (by simp))
      (fun g => form_tidy_none (d := d) es (fun e' he' => h e' (List.mem_cons_of_mem _ he')) (fun e' he' => hk e' (List.mem_cons_of_mem _ he')) n g) g

private theorem form_tidy' {d : Bool} : ∀ (es : List Slot), (∀ e ∈ es, e.Ok) → es.Pairwise (fun e e' => e.resets = true → e'.kept = false) → ∀ n, (formSq d es).tidy n n = true
  | [], _, _, _ => rfl
  | e :: es, h, hn, n => by
    rw [List.pairwise_cons] at hn
    have h' : ∀ e ∈ es, e.Ok := fun e' he' => h e' (List.mem_cons_of_mem _ he')
    have ih := form_tidy' (d := d) es h' hn.2
    have he := h e (by simp)
    cases e with
    | piece p =>
      have hg := not_group (piece_atom he).2.2.2.1
      cases hk : p.kept with
      | true => simp [formSq, slotSq, pieceSq, hk, Sq.tidy, ih]
      | false =>
        simp only [formSq, slotSq, pieceSq, hk, Bool.false_eq_true, if_false]
        cases hw : p.what with
        | group c as => exact absurd hw (hg _ _)
        | cls neg items dash =>
          rw [Sq.tidy]
          · exact form_tidy_none (d := d) es h' (fun e' he' => hn.1 e' he' (by simp [Slot.resets, hk, hw, Atom.isClass])) n 0
        | _ => simp only [Sq.tidy, ih]
    | words k ws =>
      cases ws with
      | nil => exact absurd rfl he.1
      | cons w ws =>
        cases k with
        | true => simp [formSq, slotSq, Sq.tidy, ih]
        | false =>
          simp only [formSq, slotSq, Sq.tidy]
          exact form_tidy_none (d := d) es h' (fun e' he' => hn.1 e' he' rfl) n 0

theorem form_tidy {d : Bool} : ∀ (es : List Slot), (∀ e ∈ es, e.Ok) → SlotsNumbered es → (formSq d es).tidy 0 0 = true
  | [], _, _ => rfl
  | e :: es, h, hn => by
    have he := h e (by simp)
    cases hk : e.kept with
    | true =>
      refine form_tidy' (d := d) (e :: es) h ?_ 0
      simpa [SlotsNumbered, List.dropWhile_cons, hk] using hn
    | false =>
      have ih := form_tidy (d := d) es (fun e' he' => h e' (List.mem_cons_of_mem _ he')) (by simpa [SlotsNumbered, List.dropWhile_cons, hk] using hn)
      cases e with
      | piece p =>
        have hg := not_group (piece_atom he).2.2.2.1
        have hk : p.kept = false := hk
        simp only [formSq, slotSq, pieceSq, hk, Bool.false_eq_true, if_false]
        cases hw : p.what <;> first | exact absurd hw (hg _ _) | simp only [Sq.tidy, ih]
      | words k ws =>
        have hk : k = false := hk
        subst hk
        cases ws with
        | nil => exact absurd rfl he.1
        | cons w ws => simp only [formSq, slotSq, Sq.tidy, ih]

theorem form_takes {d : Bool} : ∀ (es : List Slot), (∀ e ∈ es, e.Ok) → (∃ e ∈ es, e.must = true) → (formSq d es).takes = true
  | [], _, h => by simp at h
  | e :: es, h, hex => by
    have he := h e (by simp)
    have key : e.must = true ∨ (formSq d es).takes = true := by
      obtain ⟨e', he', hlo⟩ := hex
      rcases List.mem_cons.1 he' with rfl | he'
      · exact Or.inl hlo
      · exact Or.inr (form_takes (d := d) es (fun e' he' => h e' (List.mem_cons_of_mem _ he')) ⟨e', he', hlo⟩)
    cases e with
    | piece p =>
      have hg := not_group (piece_atom he).2.2.2.1
      have key : p.times.lo ≠ 0 ∨ (formSq d es).takes = true := key.imp (fun h => by simpa [Slot.must] using h) id
      cases hk : p.kept with
      | true =>
        simp only [formSq, slotSq, pieceSq, hk, if_true, Sq.takes, Alts.list, List.all_cons, List.all_nil, Sq.eats]
        rcases key with key | key
        · have : (p.times.lo != 0) = true := by simpa using key
          rw [this]; simp [Quant.lo]
        · simp [key]
      | false =>
        have : ((p.times.lo != 0) || (formSq d es).takes) = true := by
          rcases key with key | key
          · have : (p.times.lo != 0) = true := by simpa using key
            simp [this]
          · simp [key]
        simp only [formSq, slotSq, pieceSq, hk, Bool.false_eq_true, if_false]
        cases hw : p.what <;> first | exact absurd hw (hg _ _) | (simp only [Sq.takes]; exact this)
    | words k ws =>
      cases ws with
      | nil => exact absurd rfl he.1
      | cons w ws =>
        simp only [formSq, slotSq, Sq.takes, choice_list, Bool.or_eq_true, Bool.and_eq_true, List.all_eq_true]
        refine Or.inl ⟨rfl, fun b hb => ?_⟩
        obtain ⟨v, hv, rfl⟩ := List.mem_map.1 hb
        exact (plain_ok (he.2 v hv).1 (he.2 v hv).2.2).2.1

private theorem form_empty (es : List Slot) (h : ∀ e ∈ es, e.Ok) : (formSq true es).empty = false := by
  cases es with
  | nil => rfl
  | cons e es =>
    have he := h e (by simp)
    cases e with
    | piece p => cases hk : p.kept <;> simp [formSq, slotSq, pieceSq, hk, Sq.empty]
    | words k ws =>
      cases ws with
      | nil => exact absurd rfl he.1
      | cons w ws => simp [formSq, slotSq, Sq.empty]

private theorem form_regular {es : List Slot} (h : ∀ e ∈ es, e.Ok) (hcl : AllClear es) (hn : SlotsNumbered es) (hex : ∃ e ∈ es, e.must = true) :
    (Alts.last true (formSq true es)).capRegular = true := by
  simp [Alts.capRegular, Alts.capSane, form_capOk es h hcl, form_tidy es h hn, form_takes es h hex, form_empty es h]

theorem form_count {d : Bool} : ∀ (es : List Slot), (∀ e ∈ es, e.Ok) → ∀ ts, Fill es ts → ∀ x, (formSq d es).count = (spots es ts x).length
  | [], _, _, rfl, x => rfl
  | e :: es, h, ts', hf, x => by
    obtain ⟨w, ts, rfl, _, h1⟩ := hf
    have he := h e (by simp)
    have ih := form_count (d := d) es (fun e' he' => h e' (List.mem_cons_of_mem _ he')) ts h1 (x + w.length)
    cases e with
    | piece p =>
      have hg := not_group (piece_atom he).2.2.2.1
      have hc : p.what.count = 0 := by
        cases hw : p.what <;> first | exact absurd hw (hg _ _) | rfl
      cases hk : p.kept with
      | true => simp [formSq, slotSq, pieceSq, hk, Sq.count, Atom.count, Alts.count, hc, spots, Slot.kept, ih]; omega
      | false => simp [formSq, slotSq, pieceSq, hk, Sq.count, hc, spots, Slot.kept, ih]
    | words k ws =>
      cases ws with
      | nil => exact absurd rfl he.1
      | cons v ws =>
        cases k <;> simp [formSq, slotSq, Sq.count, Atom.count, choice_no_groups, spots, Slot.kept, ih]
        omega

/-! ## there is only one way to take the query apart -/

theorem fits_head {e : Slot} (he : e.Ok) (hm : e.must = true) {w : List Int} (h : e.Fits w) : ∃ c l, w = c :: l ∧ e.starts c = true := by
  cases e with
  | piece p =>
    cases w with
    | nil =>
      have := h.1
      simp [Slot.must] at hm this; omega
    | cons c w => exact ⟨c, w, rfl, h.2.2 c (by simp)⟩
  | words k ws =>
    cases w with
    | nil => exact absurd rfl (he.2 [] h).1
    | cons c w => exact ⟨c, w, rfl, by simp only [Slot.starts, List.any_eq_true]; exact ⟨c :: w, h, by simp⟩⟩

private theorem fill_next {es : List Slot} (hok : ∀ e ∈ es, e.Ok) (hm : ∀ e, es.head? = some e → e.must = true) {ts : List (List Int)} {rest : List Int} (h : Fill es ts)
    (hr : rest = [] ∨ rest.head? = some 10) {c : Int} {l : List Int} (he : ts.flatten ++ rest = c :: l) : upNext es c = true := by
  cases es with
  | nil =>
    have : ts = [] := h
    subst this
    rcases hr with rfl | hr
    · simp at he
    · simp only [List.flatten_nil, List.nil_append] at he
      rw [he] at hr
      simp only [List.head?_cons, Option.some.injEq] at hr
      simp [upNext, hr]
  | cons e es =>
    obtain ⟨w, r, rfl, hf, _⟩ := h
    obtain ⟨d, l', rfl, hd⟩ := fits_head (hok e (by simp)) (hm e rfl) hf
    simp only [List.flatten_cons, List.cons_append, List.cons.injEq] at he
    rw [he.1] at hd
    exact hd

/-- Two words with texts behind them are the same word. -/
theorem word_once {es : List Slot} {ws : List (List Int)} (hch : ws.Pairwise (fun w w' => ¬ w <+: w' ∧ ∀ c r, w = w' ++ c :: r → upNext es c = false)) {v v' l l' : List Int}
    (hv : v ∈ ws) (hv' : v' ∈ ws) (hl : ∀ c t, l = c :: t → upNext es c = true) (hl' : ∀ c t, l' = c :: t → upNext es c = true) (he : v ++ l = v' ++ l') : v = v' := by
  have key : ∀ {a b k k' : List Int}, (∀ c t, k' = c :: t → upNext es c = true) → a ++ k = b ++ k' →
      (¬ a <+: b ∧ ∀ c t, a = b ++ c :: t → upNext es c = false) → False := by
    intro a b k k' f1 f2 f3
    have pa : a <+: a ++ k := ⟨k, rfl⟩
    have pb : b <+: a ++ k := ⟨k', f2.symm⟩
    rcases List.prefix_or_prefix_of_prefix pa pb with hp | ⟨t, ht⟩
    · exact f3.1 hp
    · cases t with
      | nil => exact f3.1 (by rw [List.append_nil] at ht; rw [ht]; exact List.prefix_rfl)
      | cons c t =>
        rw [← ht, List.append_assoc] at f2
        have := f1 c (t ++ k) (List.append_cancel_left f2).symm
        rw [f3.2 c t ht.symm] at this; cases this
  have pw : ∀ (l0 : List (List Int)), l0.Pairwise (fun w w' => ¬ w <+: w' ∧ ∀ c r, w = w' ++ c :: r → upNext es c = false) → v ∈ l0 → v' ∈ l0 → v = v' := by
    intro l0
    induction l0 with
    | nil => intro _ h; simp at h
    | cons a l0 ih =>
      intro hp h1 h2
      rw [List.pairwise_cons] at hp
      rcases List.mem_cons.1 h1 with e1 | h1
      · rcases List.mem_cons.1 h2 with e2 | h2
        · rw [e1, e2]
        · exact (key hl' he (e1 ▸ hp.1 v' h2)).elim
      · rcases List.mem_cons.1 h2 with e2 | h2
        · exact (key hl he.symm (e2 ▸ hp.1 v h1)).elim
        · exact ih hp.2 h1 h2
  exact pw ws hch hv hv'

private theorem form_one_way : ∀ (es : List Slot), (∀ e ∈ es, e.Ok) → AllClear es → ∀ (ts ts' : List (List Int)) (rest rest' : List Int), Fill es ts → Fill es ts' →
    (rest = [] ∨ rest.head? = some 10) → (rest' = [] ∨ rest'.head? = some 10) → ts.flatten ++ rest = ts'.flatten ++ rest' → ts = ts' ∧ rest = rest'
  | [], _, _, _, _, rest, rest', rfl, rfl, _, _, h => ⟨rfl, by simpa using h⟩
  | e :: es, h, hcl, ts1, ts2, rest, rest', hf1, hf2, hr, hr', heq => by
    have h' : ∀ e ∈ es, e.Ok := fun e' he' => h e' (List.mem_cons_of_mem _ he')
    have ih := form_one_way es h' hcl.2
    have he := h e (by simp)
    have hc := hcl.1
    obtain ⟨w, ws, rfl, hw, hws⟩ := hf1
    obtain ⟨w', ws', rfl, hw', hws'⟩ := hf2
    simp only [List.flatten_cons, List.append_assoc] at heq
    have key : w = w' ∧ ws.flatten ++ rest = ws'.flatten ++ rest' := by
      cases e with
      | words k vs =>
        have := word_once hc.2 hw hw' (fun c t ht => fill_next h' hc.1 hws hr ht) (fun c t ht => fill_next h' hc.1 hws' hr' ht) heq
        subst this
        exact ⟨rfl, List.append_cancel_left heq⟩
      | piece p =>
        by_cases hfx : p.times.fixed = true
        · refine List.append_inj heq ?_
          have hh : p.times.hi = some p.times.lo := by
            cases hk : p.times <;> simp [hk, Quant.fixed] at hfx <;> simp [Quant.hi, Quant.lo]
          have a1 := hw.1
          have a2 := hw.2.1 _ hh
          have a3 := hw'.1
          have a4 := hw'.2.1 _ hh
          omega
        · have hend : ∀ (vs : List (List Int)) (r : List Int), Fill es vs → (r = [] ∨ r.head? = some 10) → ∀ c, (vs.flatten ++ r).head? = some c → p.what.set c = false := by
            intro vs r hv hr c hcc
            obtain ⟨t, ht⟩ : ∃ t, vs.flatten ++ r = c :: t := by
              cases hl : vs.flatten ++ r with
              | nil => rw [hl] at hcc; simp at hcc
              | cons d t => rw [hl, List.head?_cons, Option.some.injEq] at hcc; exact ⟨t, by rw [hcc]⟩
            cases es with
            | nil =>
              have hn := fill_next h' (by simp) hv hr ht
              simp only [upNext, beq_iff_eq] at hn
              rw [hn]
              exact (Or.resolve_left hc hfx).1
            | cons e' es =>
              obtain ⟨h1, h2⟩ := Or.resolve_left hc hfx
              have hn := fill_next h' (by intro e0 h0; cases h0; exact plain_must h1) hv hr ht
              cases hpc : p.what.set c with
              | false => rfl
              | true => rw [upNext, h2 c hpc] at hn; cases hn
          exact same_run heq hw.2.2 hw'.2.2 (hend ws rest hws hr) (hend ws' rest' hws' hr')
    obtain ⟨rfl, key⟩ := key
    obtain ⟨rfl, rfl⟩ := ih ws ws' rest rest' hws hws' hr hr' key
    exact ⟨rfl, rfl⟩

/-- **C75.** There is only one way to fill the places of a form such that the query comes out. -/
theorem C75_one_way (es : List Slot) (hok : ∀ e ∈ es, e.Ok) (hcl : AllClear es) (q : List Int) (ts ts' : List (List Int)) (rest rest' : List Int)
    (h : Filled es q ts rest) (h' : Filled es q ts' rest') : ts = ts' ∧ rest = rest' :=
  form_one_way es hok hcl ts ts' rest rest' h.1 h'.1 h.2.2 h'.2.2 (h.2.1.symm.trans h'.2.1)

/-- **C75.** Checking a form: for every list of places, each of them a piece as in C71 or one of several words as in C74, one of which must take a character, and such that it is
clear where the text of each place ends: matching with `^`, the places and `$` accepts a query if and only if the query, up to its end or to a line end, is texts for the
places one after the other.  There is only one way to take the query apart like that, and the groups are the texts of the places in capturing parentheses, in order.  The match
ends with them, or with the newline. -/
theorem C75_form (es : List Slot) (hok : ∀ e ∈ es, e.Ok) (hcl : AllClear es) (hn : SlotsNumbered es) (hex : ∃ e ∈ es, e.must = true)
    (hc : ∀ c ∈ formSpell es, c ∈ allChars) :
    ∃ t, compile (formSpell es) = some t ∧
      ∀ (cx : Ctx), (∀ c ∈ cx.query, c ∈ allChars) → cx.query.length < 4294967295 → cx.post.head? = some 0 →
        ∀ (fuel : Nat), cx.query.length ≤ fuel → ∃ st, construct cx t fuel = .ok st ∧
          (st.accepted = true ↔ ∃ ts rest, Filled es cx.query ts rest) ∧
          ∀ ts rest, Filled es cx.query ts rest →
            getGroup st 0 = some (some (0, if rest = [] then (ts.flatten.length : Int) else ts.flatten.length + 1)) ∧
            ∀ k (hk : k < (spots es ts 0).length), getGroup st (k + 1) = some (some (((spots es ts 0)[k].1 : Int), ((spots es ts 0)[k].2 : Int))) := by
  have hsp : (Alts.last true (formSq true es)).spell = formSpell es := by simp [Alts.spell, form_spell es hok, formSpell]
  have hr := form_regular hok hcl hn hex
  obtain ⟨t, ht, h⟩ := C55_whole_query_groups_partial (formSq true es) hr (by rw [hsp]; exact hc)
  rw [hsp] at ht
  refine ⟨t, ht, fun cx hq hlen hnul fuel hfuel => ?_⟩
  obtain ⟨st, e1, e2⟩ := h cx hq hlen (fun _ => hnul) fuel hfuel
  refine ⟨st, e1, ?_⟩
  rw [ways_caps _ (capOk_shallow _ (form_capOk es hok hcl)), List.head?_map] at e2
  have hmem := mem_form cx.query es hok 0 (Nat.zero_le _)
  simp only [List.drop_zero] at hmem
  have some_of : ∀ ts rest, Filled es cx.query ts rest →
      (caps cx.query (formSq true es) 0).head? = some (endAt 0 ts rest, spots es ts 0) := by
    rintro ts rest ⟨h1, h2, h3⟩
    have hin := (hmem _).2 ⟨ts, rest, h1, h2, h3, rfl⟩
    cases hcs : caps cx.query (formSq true es) 0 with
    | nil => rw [hcs] at hin; simp at hin
    | cons r l =>
      obtain ⟨ts', rest', h1', h2', h3', rfl⟩ := (hmem r).1 (by rw [hcs]; simp)
      obtain ⟨rfl, rfl⟩ := form_one_way es hok hcl ts ts' rest rest' h1 h1' h3 h3' (h2.symm.trans h2')
      rfl
  constructor
  · constructor
    · intro ha
      cases hh : (caps cx.query (formSq true es) 0).head? with
      | none => rw [hh] at e2; simp only [Option.map_none] at e2; rw [ha] at e2; cases e2
      | some r =>
        obtain ⟨ts, rest, h1, h2, h3, _⟩ := (hmem r).1 (List.mem_of_mem_head? hh)
        exact ⟨ts, rest, h1, h2, h3⟩
    · rintro ⟨ts, rest, hs⟩
      rw [some_of ts rest hs] at e2
      exact e2.1
  · intro ts rest hs
    rw [some_of ts rest hs] at e2
    obtain ⟨_, g0, gk⟩ := e2
    constructor
    · rw [g0]
      simp only [endAt, Nat.zero_add]
      split <;> simp
    · intro k hk
      have hcount : (Alts.last true (formSq true es)).count = (spots es ts 0).length := by
        simpa [Alts.count] using form_count es hok ts hs.1 0
      rw [gk k (by rw [hcount]; exact hk)]
      simp only [fill_get (spots es ts 0) 0 k noCaps (fun _ _ => rfl) (Nat.zero_le _), Nat.sub_zero, List.getElem?_eq_getElem hk, Option.map_some]

/-- **C75 is false of forms in which it is not clear where a piece ends**: `121a` is some digits and `b` or `1a`, and `^(\d+)(b|1a)$` rejects it (`^(\d+)(1a|b)$` does not:
the library only looks at the first word). -/
theorem C75_refuted_unclear : (build (str "^(\\d+)(b|1a)$")).map (fun b => ends (str "121a") (toRx b) 0) = some [4] ∧ m "^(\\d+)(b|1a)$" "121a" = none ∧
    m "^(\\d+)(1a|b)$" "121a" = some [some "121a", some "12", some "1a"] := by decide +kernel

/-- **C75 is false of forms with words in `(?:…)` between two groups**: in `1a2` the groups of `^(\d)(?:a|b)(\d)$` are `1` and `2`, and `2` and nothing are reported. -/
theorem C75_refuted_numbering : m "^(\\d)(?:a|b)(\\d)$" "1a2" = some [some "1a2", some "2", some ""] := by decide +kernel

end ERegex.Props

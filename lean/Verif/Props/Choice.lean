import Verif.Props.Format
import Verif.Props.FindAll
import Verif.Spec.Choice
/-!
# C74 : checking that a query is one of several words
-/
set_option autoImplicit false
namespace ERegex.Props
open ERegex ERegex.Spec
open ERegex.Conformance (lit m)

/-! ## words and formats that meet the conditions -/

/-- ` /(\w+)` -/
private def path : List Piece := [⟨false, .chr 32, .once⟩, ⟨false, .chr 47, .once⟩, ⟨true, .esc 119, .plus .greedy⟩]
private def answers : List (List Int) := [str "yes", str "no", str "maybe"]
private def shorter : List (List Int) := [str "none", str "not", str "no"]
private def verbs : List (List Int) := [str "GET", str "POST", str "PUT"]

example : choiceSpell true answers [] = str "^(yes|no|maybe)$" ∧ choiceSpell false shorter [] = str "^(?:none|not|no)$" ∧
    choiceSpell true verbs path = str "^(GET|POST|PUT) /(\\w+)$" := by decide +kernel
private def WordsOk (ws : List (List Int)) (ps : List Piece) : Prop :=
  ws ≠ [] ∧ (∀ v ∈ ws, v ≠ [] ∧ v.length < 4294967296 ∧ ∀ c ∈ v, plainB c = true) ∧ (∀ p ∈ ps, p.ok = true) ∧ (∀ c ∈ choiceSpell true ws ps, c ∈ allChars) ∧
    ChoiceNumbered true ps ∧ ChoiceNumbered false ps
private instance (ws : List (List Int)) (ps : List Piece) : Decidable (WordsOk ws ps) := by
  unfold WordsOk ChoiceNumbered Numbered
  simp only [if_true, Bool.false_eq_true, if_false]
  infer_instance
example : WordsOk answers [] ∧ WordsOk shorter [] ∧ WordsOk verbs path := by decide +kernel
private theorem choosable_of {ps : List Piece} {ws : List (List Int)} (h : ws.Pairwise (fun w w' => w.isPrefixOf w' = false ∧
    (w'.isPrefixOf w = false ∨ ∀ c, (w.drop w'.length).head? = some c → behind ps c = false))) : Choosable ps ws := by
  refine h.imp fun {w w'} h => ⟨fun hp => ?_, fun c r e => ?_⟩
  · rw [List.isPrefixOf_iff_prefix.2 hp] at h; cases h.1
  · rcases h.2 with h | h
    · rw [List.isPrefixOf_iff_prefix.2 ⟨_, e.symm⟩] at h; cases h
    · exact h c (by rw [e, List.drop_left]; rfl)
example : Choosable [] answers ∧ Choosable [] shorter ∧ Choosable path verbs := by
  refine ⟨choosable_of ?_, choosable_of ?_, choosable_of ?_⟩
  · simp [answers]; decide +kernel
  · simp [shorter]; decide +kernel
  · simp [verbs]; decide +kernel
example : Clear path := by simp [path, Clear, Quant.fixed, Quant.lo, Quant.hi]; decide
example : ∀ p, path.head? = some p → p.times.lo ≠ 0 := by intro p h; cases h; decide
example : Chosen verbs path (str "PUT /abc") (str "PUT") [str " ", str "/", str "abc"] [] ∧
    choicePlaces true path (str "PUT") [str " ", str "/", str "abc"] = [(0, 3), (5, 8)] := by
  refine ⟨⟨by decide, ?_, by decide, Or.inl rfl⟩, by decide⟩
  refine ⟨_, _, rfl, ?_, _, _, rfl, ?_, _, _, rfl, ?_, rfl⟩ <;>
    exact ⟨by decide, by intro h hh; (first | (cases hh; decide) | cases hh), by decide⟩
example : m "^(GET|POST|PUT) /(\\w+)$" "PUT /abc" = some [some "PUT /abc", some "PUT", some "abc"] ∧ m "^(GET|POST|PUT) /(\\w+)$" "PUSH /abc" = none ∧
    m "^(?:none|not|no)$" "no" = some [some "no"] ∧ m "^(?:none|not|no)$" "nor" = none := by decide +kernel

/-! ## the expression -/

private def choiceSq (kept : Bool) (w : List Int) (ws : List (List Int)) (ps : List Piece) : Sq :=
  .cons (.group kept (choice w ws)) .once (formatSq true ps)

private theorem choice_sq_spell (kept : Bool) (w : List Int) (ws : List (List Int)) (ps : List Piece) :
    (Alts.last true (choiceSq kept w ws ps)).spell = choiceSpell kept (w :: ws) ps := by
  cases kept <;> simp [choiceSq, Alts.spell, Sq.spell, Atom.spell, Quant.spell, choice_spell, format_spell, choiceSpell, piecesSpell]

private theorem format_voids : ∀ (ps : List Piece), (formatSq true ps).voids = false
  | [] => rfl
  | p :: ps => by
    have ih := format_voids ps
    cases hk : p.kept with
    | true => simp [formatSq, pieceSq, hk, Sq.voids, ih]
    | false =>
      simp only [formatSq, pieceSq, hk, Bool.false_eq_true, if_false]
      cases hw : p.what <;> simp [Sq.voids, ih]

private theorem begins_behind {ps : List Piece} (hok : ∀ p ∈ ps, p.ok = true) (hlo : ∀ p, ps.head? = some p → p.times.lo ≠ 0) {c : Int} (h : (formatSq true ps).begins c = true) :
    behind ps c = true := by
  cases ps with
  | nil => simpa [formatSq, Sq.begins, behind] using h
  | cons p ps => exact (begins_format (hok p (by simp)) (hlo p rfl) (formatSq true ps) c).1 h

theorem words_part {s : Sq} (hv : s.voids = false) : ∀ (w w' : List Int), ¬ w <+: w' → (∀ c r, w = w' ++ c :: r → ∀ x, s.begins x = true → x ≠ c) → parts s (plain w) (plain w') = true
  | [], w', h, _ => absurd (List.nil_prefix) h
  | c :: w, [], _, h => by
    have : meets (Atom.chr c).set s.begins = false := not_meets (fun x h1 h2 => h c w rfl x h2 (by simpa [Atom.set] using h1))
    simp [plain, parts, hv, this, Quant.lo]
  | c :: w, c' :: w', h1, h2 => by
    by_cases hc : c = c'
    · subst hc
      have ih := words_part hv w w' (fun h => h1 (by simpa using h)) (fun d r hr => h2 d r (by simp [hr]))
      simp only [plain] at ih
      simp [plain, parts, ih, Quant.fixed]
    · have : meets (Atom.chr c).set (Atom.chr c').set = false := not_meets (fun x h1 h2 => by
        simp only [Atom.set, beq_iff_eq] at h1 h2; exact hc (h1.symm.trans h2))
      simp [plain, parts, this, Quant.lo]

private theorem words_apart {ps : List Piece} (hok : ∀ p ∈ ps, p.ok = true) (hlo : ∀ p, ps.head? = some p → p.times.lo ≠ 0) : ∀ (ws : List (List Int)), Choosable ps ws →
    Spec.apart (formatSq true ps) (ws.map plain) = true
  | [], _ => rfl
  | w :: ws, h => by
    simp only [Choosable, List.pairwise_cons] at h
    simp only [List.map_cons, Spec.apart, Bool.and_eq_true, List.all_eq_true, Bool.or_eq_true, List.mem_map]
    refine ⟨?_, words_apart hok hlo ws h.2⟩
    rintro _ ⟨w', hw', rfl⟩
    obtain ⟨h1, h2⟩ := h.1 w' hw'
    refine Or.inr (words_part (format_voids ps) w w' h1 (fun c r hr x hx hxc => ?_))
    subst hxc
    have := begins_behind hok hlo hx
    rw [h2 x r hr] at this; cases this

theorem plain_still (s : Sq) : ∀ w : List Int, settled s (plain w) = true ∧ headStill s (plain w) = true
  | [] => ⟨rfl, rfl⟩
  | c :: w => by
    have ih := plain_still s w
    simp only [plain, List.foldr_cons] at ih ⊢
    simp [settled, headStill, Quant.mode, Quant.fixed, ih]

private theorem choice_body {kept : Bool} {w : List Int} {ws : List (List Int)} {ps : List Piece} (hw : ∀ v ∈ w :: ws, v ≠ [] ∧ v.length < 4294967296 ∧ ∀ c ∈ v, plainB c = true)
    (hch : Choosable ps (w :: ws)) (hok : ∀ p ∈ ps, p.ok = true) (hlo : ∀ p, ps.head? = some p → p.times.lo ≠ 0) :
    bodyOk kept (choice w ws) (formatSq true ps) = true := by
  have hpl := fun v hv => plain_ok (hw v hv).1 (hw v hv).2.2
  have hempty : ∀ v : List Int, v ≠ [] → (plain v).empty = false := by
    intro v hv
    cases v with
    | nil => exact absurd rfl hv
    | cons c v => rfl
  have hhead : ∀ v : List Int, v ≠ [] → (plain v).steadyHead = true := by
    intro v hv
    cases v with
    | nil => exact absurd rfl hv
    | cons c v => rfl
  unfold bodyOk
  simp only [Bool.and_eq_true, Bool.or_eq_true]
  refine ⟨⟨⟨choice_bare w ws (fun v hv => (hpl v hv).2.2), ?_⟩, Or.inr ⟨?_, ?_⟩⟩, ?_⟩
  · rw [choice_list, List.all_eq_true]
    intro b hb
    obtain ⟨v, hv, rfl⟩ := List.mem_map.1 hb
    simp [plain_regular v (hw v hv).2.2, hempty v (hw v hv).1, plain_least, (hw v hv).2.1]
  · rw [choice_list, List.all_eq_true]
    intro b hb
    obtain ⟨v, hv, rfl⟩ := List.mem_map.1 hb
    exact (plain_still _ v).1
  · rw [choice_list]
    exact words_apart hok hlo _ hch
  · have hall : (choice w ws).list.all (fun b => b.eats && b.steadyHead) = true := by
      rw [choice_list, List.all_eq_true]
      intro b hb
      obtain ⟨v, hv, rfl⟩ := List.mem_map.1 hb
      simp [(hpl v hv).2.1, hhead v (hw v hv).1]
    cases ws with
    | nil => cases kept <;> simp [choice, (plain_still _ w).2, (hpl w (by simp)).2.1]
    | cons w' ws => exact hall

theorem choice_groupOk {kept : Bool} {w : List Int} {ws : List (List Int)} {s : Sq} (hw : w ≠ []) (h : bodyOk kept (choice w ws) s = true) :
    groupOk kept (choice w ws) s = true := by
  unfold groupOk
  split
  · rename_i a k he
    cases ws with
    | nil =>
      cases w with
      | nil => exact absurd rfl hw
      | cons c w =>
        simp only [choice, plain, List.foldr_cons, Alts.last.injEq, Sq.cons.injEq, true_and] at he
        obtain ⟨_, rfl, _⟩ := he
        exact h
    | cons => simp [choice] at he
  · exact h

theorem plain_count : ∀ w : List Int, (plain w).count = 0
  | [] => rfl
  | c :: w => by
    have ih := plain_count w
    simp only [plain, List.foldr_cons] at ih ⊢
    simp [Sq.count, Atom.count, ih]

theorem choice_no_groups : ∀ (w : List Int) (ws : List (List Int)), (choice w ws).count = 0
  | w, [] => by simp [choice, Alts.count, plain_count]
  | w, w' :: ws => by simp [choice, Alts.count, plain_count, choice_no_groups w' ws]

private theorem choice_regular {kept : Bool} {w : List Int} {ws : List (List Int)} {ps : List Piece}
    (hw : ∀ v ∈ w :: ws, v ≠ [] ∧ v.length < 4294967296 ∧ ∀ c ∈ v, plainB c = true) (hch : Choosable ps (w :: ws)) (hok : ∀ p ∈ ps, p.ok = true) (hcl : Clear ps)
    (hlo : ∀ p, ps.head? = some p → p.times.lo ≠ 0) (hn : ChoiceNumbered kept ps) : (Alts.last true (choiceSq kept w ws ps)).capRegular = true := by
  have h1 := choice_groupOk (hw w (by simp)).1 (choice_body (kept := kept) hw hch hok hlo)
  have h2 : (choiceSq kept w ws ps).capOk = true := by
    simp only [choiceSq, Sq.capOk, h1, format_capOk ps hok hcl, Bool.and_self]
  have h3 : (choiceSq kept w ws ps).tidy 0 0 = true := by
    cases kept with
    | true => simpa [choiceSq, Sq.tidy] using format_tidy' (d := true) ps hok hn 1
    | false => simpa [choiceSq, Sq.tidy] using format_tidy (d := true) ps hok hn
  have h4 : (choiceSq kept w ws ps).takes = true := by
    simp only [choiceSq, Sq.takes, choice_list, Bool.or_eq_true, Bool.and_eq_true, List.all_eq_true]
    refine Or.inl ⟨rfl, fun b hb => ?_⟩
    obtain ⟨v, hv, rfl⟩ := List.mem_map.1 hb
    exact (plain_ok (hw v hv).1 (hw v hv).2.2).2.1
  simp [Alts.capRegular, Alts.capSane, h2, h3, h4]
  simp [choiceSq, Sq.empty]

private theorem mem_choice {kept : Bool} {w : List Int} {ws : List (List Int)} {ps : List Piece} (hok : ∀ p ∈ ps, p.ok = true) (q : List Int) (r : Nat × List (Nat × Nat)) :
    r ∈ caps q (choiceSq kept w ws ps) 0 ↔ ∃ v ts rest, Chosen (w :: ws) ps q v ts rest ∧ r = (endAt v.length ts rest, choicePlaces kept ps v ts) := by
  rw [choiceSq, caps_once]
  simp only [choice_picks, plain_picks, List.mem_flatMap, List.mem_map, List.drop_zero, Nat.zero_add]
  constructor
  · rintro ⟨e, ⟨v, hv, he⟩, r', hr', rfl⟩
    split at he
    · rename_i hp
      simp only [List.mem_singleton] at he
      subst he
      obtain ⟨l, hl⟩ := List.isPrefixOf_iff_prefix.1 hp
      have hlen : v.length ≤ q.length := by rw [← hl]; simp
      obtain ⟨ts, rest, h1, h2, h3, rfl⟩ := (mem_caps q ps hok _ hlen _).1 hr'
      refine ⟨v, ts, rest, ⟨hv, h1, ?_, h3⟩, rfl⟩
      rw [← hl, List.drop_left] at h2
      rw [← hl, h2, List.append_assoc]
    · simp at he
  · rintro ⟨v, ts, rest, ⟨hv, h1, h2, h3⟩, rfl⟩
    have hp : v.isPrefixOf q = true := List.isPrefixOf_iff_prefix.2 ⟨ts.flatten ++ rest, by rw [h2, List.append_assoc]⟩
    have hlen : v.length ≤ q.length := by rw [h2]; simp
    refine ⟨v.length, ⟨v, hv, by simp [hp]⟩, _, (mem_caps q ps hok _ hlen _).2 ⟨ts, rest, h1, ?_, h3, rfl⟩, rfl⟩
    rw [h2, List.append_assoc, List.drop_left]

/-- What comes behind the word. -/
private theorem behind_head {ps : List Piece} (hlo : ∀ p, ps.head? = some p → p.times.lo ≠ 0) {ts : List (List Int)} {rest : List Int} (h : AllFit ps ts)
    (hr : rest = [] ∨ rest.head? = some 10) {c : Int} {l : List Int} (he : ts.flatten ++ rest = c :: l) : behind ps c = true := by
  cases ps with
  | nil =>
    have : ts = [] := h
    subst this
    rcases hr with rfl | hr
    · simp at he
    · simp only [List.flatten_nil, List.nil_append] at he
      rw [he] at hr
      simp only [List.head?_cons, Option.some.injEq] at hr
      simp [behind, hr]
  | cons p ps =>
    obtain ⟨d, l', e1, e2⟩ := head_not (rest := rest) h (hlo p rfl)
    rw [he] at e1
    cases e1
    exact e2

private theorem same_word {ps : List Piece} (hlo : ∀ p, ps.head? = some p → p.times.lo ≠ 0) {ws : List (List Int)} (hch : Choosable ps ws) {q v v' : List Int}
    {ts ts' : List (List Int)} {rest rest' : List Int} (h : Chosen ws ps q v ts rest) (h' : Chosen ws ps q v' ts' rest') : v = v' := by
  obtain ⟨g1, g2, g3, g4⟩ := h
  obtain ⟨g1', g2', g3', g4'⟩ := h'
  have key : ∀ {a b : List Int} {us vs : List (List Int)} {r r' : List Int}, AllFit ps vs → (r' = [] ∨ r'.head? = some 10) → q = a ++ us.flatten ++ r →
      q = b ++ vs.flatten ++ r' → (¬ a <+: b ∧ ∀ c t, a = b ++ c :: t → behind ps c = false) → False := by
    intro a b us vs r r' f1 f2 f3 f4 f5
    have pa : a <+: q := ⟨us.flatten ++ r, by rw [f3, List.append_assoc]⟩
    have pb : b <+: q := ⟨vs.flatten ++ r', by rw [f4, List.append_assoc]⟩
    rcases List.prefix_or_prefix_of_prefix pa pb with hp | ⟨t, ht⟩
    · exact f5.1 hp
    · cases t with
      | nil => exact f5.1 (by rw [List.append_nil] at ht; rw [ht]; exact List.prefix_rfl)
      | cons c t =>
        have e : vs.flatten ++ r' = c :: (t ++ us.flatten ++ r) := by
          have : b ++ (vs.flatten ++ r') = b ++ (c :: (t ++ us.flatten ++ r)) := by
            rw [← List.append_assoc, ← f4, f3, ← ht]; simp
          exact List.append_cancel_left this
        have := behind_head hlo f1 f2 e
        rw [f5.2 c t ht.symm] at this; cases this
  have pw : ∀ (l : List (List Int)), l.Pairwise (fun w w' => ¬ w <+: w' ∧ ∀ c r, w = w' ++ c :: r → behind ps c = false) → v ∈ l → v' ∈ l → v = v' := by
    intro l
    induction l with
    | nil => intro _ h; simp at h
    | cons a l ih =>
      intro hp h1 h2
      rw [List.pairwise_cons] at hp
      rcases List.mem_cons.1 h1 with e1 | h1
      · rcases List.mem_cons.1 h2 with e2 | h2
        · rw [e1, e2]
        · exact (key g2' g4' g3 g3' (e1 ▸ hp.1 v' h2)).elim
      · rcases List.mem_cons.1 h2 with e2 | h2
        · exact (key g2 g4 g3' g3 (e2 ▸ hp.1 v h1)).elim
        · exact ih hp.2 h1 h2
  exact pw ws hch g1 g1'

/-- **C74.** One of several words, and a format behind it: for every list of words without operators, no one of which is a prefix of a later one (an earlier one may begin with a later
one if it does not go on with a character that can come behind the word) and every list of pieces as in C71, the first of them not optional, matching with
`^(w1|w2|…)` (or `(?:…)`), the pieces and `$` accepts a query if and only if the query, up to its end or to a line end, is one of the words and texts for the pieces; the groups
are the word, if it is in a capturing group, and the texts of the pieces in parentheses, in order. -/
theorem C74_choice (kept : Bool) (ws : List (List Int)) (ps : List Piece) (hne : ws ≠ []) (hw : ∀ v ∈ ws, v ≠ [] ∧ v.length < 4294967296 ∧ ∀ c ∈ v, plainB c = true)
    (hch : Choosable ps ws) (hok : ∀ p ∈ ps, p.ok = true) (hcl : Clear ps) (hlo : ∀ p, ps.head? = some p → p.times.lo ≠ 0) (hn : ChoiceNumbered kept ps)
    (hc : ∀ c ∈ choiceSpell kept ws ps, c ∈ allChars) :
    ∃ t, compile (choiceSpell kept ws ps) = some t ∧
      ∀ (cx : Ctx), (∀ c ∈ cx.query, c ∈ allChars) → cx.query.length < 4294967295 → cx.post.head? = some 0 →
        ∀ (fuel : Nat), cx.query.length ≤ fuel → ∃ st, construct cx t fuel = .ok st ∧
          (st.accepted = true ↔ ∃ w ts rest, Chosen ws ps cx.query w ts rest) ∧
          ∀ w ts rest, Chosen ws ps cx.query w ts rest →
            getGroup st 0 = some (some (0, (w.length : Int) + ts.flatten.length + if rest = [] then 0 else 1)) ∧
            ∀ k (hk : k < (choicePlaces kept ps w ts).length),
              getGroup st (k + 1) = some (some (((choicePlaces kept ps w ts)[k].1 : Int), ((choicePlaces kept ps w ts)[k].2 : Int))) := by
  cases ws with
  | nil => exact absurd rfl hne
  | cons w0 ws =>
  have hsp := choice_sq_spell kept w0 ws ps
  have hr := choice_regular hw hch hok hcl hlo hn
  obtain ⟨t, ht, h⟩ := C55_whole_query_groups_partial (choiceSq kept w0 ws ps) hr (by rw [hsp]; exact hc)
  rw [hsp] at ht
  refine ⟨t, ht, fun cx hq hlen hnul fuel hfuel => ?_⟩
  obtain ⟨st, e1, e2⟩ := h cx hq hlen (fun _ => hnul) fuel hfuel
  refine ⟨st, e1, ?_⟩
  have hcap : (choiceSq kept w0 ws ps).capOk = true := by
    simp only [Alts.capRegular, Alts.capSane, Bool.and_eq_true] at hr
    exact hr.1.1.1.1
  rw [ways_caps _ (capOk_shallow _ hcap), List.head?_map] at e2
  have hmem := mem_choice (kept := kept) (w := w0) (ws := ws) hok cx.query
  have some_of : ∀ w ts rest, Chosen (w0 :: ws) ps cx.query w ts rest →
      (caps cx.query (choiceSq kept w0 ws ps) 0).head? = some (endAt w.length ts rest, choicePlaces kept ps w ts) := by
    intro w ts rest hs
    have hin := (hmem _).2 ⟨w, ts, rest, hs, rfl⟩
    cases hcs : caps cx.query (choiceSq kept w0 ws ps) 0 with
    | nil => rw [hcs] at hin; simp at hin
    | cons r l =>
      obtain ⟨w', ts', rest', hs', rfl⟩ := (hmem r).1 (by rw [hcs]; simp)
      have hww := same_word hlo hch hs hs'
      subst hww
      obtain ⟨_, h1, h2, h3⟩ := hs
      obtain ⟨_, h1', h2', h3'⟩ := hs'
      have he : w ++ (ts.flatten ++ rest) = w ++ (ts'.flatten ++ rest') := by rw [← List.append_assoc, ← List.append_assoc, ← h2, ← h2']
      obtain ⟨rfl, rfl⟩ := one_way ps hok hcl ts ts' rest rest' h1 h1' h3 h3' (List.append_cancel_left he)
      rfl
  constructor
  · constructor
    · intro ha
      cases hh : (caps cx.query (choiceSq kept w0 ws ps) 0).head? with
      | none => rw [hh] at e2; simp only [Option.map_none] at e2; rw [ha] at e2; cases e2
      | some r =>
        obtain ⟨w, ts, rest, hs, _⟩ := (hmem r).1 (List.mem_of_mem_head? hh)
        exact ⟨w, ts, rest, hs⟩
    · rintro ⟨w, ts, rest, hs⟩
      rw [some_of w ts rest hs] at e2
      exact e2.1
  · intro w ts rest hs
    rw [some_of w ts rest hs] at e2
    obtain ⟨_, g0, gk⟩ := e2
    constructor
    · rw [g0]
      simp only [endAt]
      split <;> simp
    · intro k hk
      have hcount : (Alts.last true (choiceSq kept w0 ws ps)).count = (choicePlaces kept ps w ts).length := by
        have := format_count (d := true) ps hok ts hs.2.1 w.length
        cases kept <;> simp [Alts.count, choiceSq, Sq.count, Atom.count, choice_no_groups, choicePlaces, this]
        omega
      rw [gk k (by rw [hcount]; exact hk)]
      simp only [fill_get (choicePlaces kept ps w ts) 0 k noCaps (fun _ _ => rfl) (Nat.zero_le _), Nat.sub_zero, List.getElem?_eq_getElem hk, Option.map_some]

/-- **C74 is false of words one of which is a prefix of a later one**: `none` is one of `no` and `none`, and `^(no|none)$` rejects it; `(?:a|ab)` likewise. -/
theorem C74_refuted_prefix : (build (str "^(no|none)$")).map (fun b => ends (str "none") (toRx b) 0) = some [4] ∧ m "^(no|none)$" "none" = none ∧
    (build (str "^(?:a|ab)$")).map (fun b => ends (str "ab") (toRx b) 0) = some [2] ∧ m "^(?:a|ab)$" "ab" = none ∧ m "^(none|no|not)$" "not" = none := by decide +kernel

/-- **C74 is false of words that can be read in two ways with the format behind them**: `none` is `no`, `n` and a word character, and `^(none|no)n(\w)$` rejects it. -/
theorem C74_refuted_behind : (build (str "^(none|no)n(\\w)$")).map (fun b => ends (str "none") (toRx b) 0) = some [4] ∧ m "^(none|no)n(\\w)$" "none" = none := by
  decide +kernel

end ERegex.Props

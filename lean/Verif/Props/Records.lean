import Verif.Props.FindGroups
/-!
# C62 : records with any number of fields
-/
set_option autoImplicit false
namespace ERegex.Props
open ERegex ERegex.Spec
open ERegex.Conformance (lit m)

/-- `(a+)` in front of `s`. -/
def fieldSq (a : Atom) (s : Sq) : Sq := .cons (.group true (.last false (.cons a (.plus .greedy) (.nil false)))) .once s

/-- `(a+)sep(a'+)sep'…(b+)` -/
def recordSq (b : Atom) : List (Atom × Int) → Sq
  | [] => fieldSq b (.nil false)
  | (a, sep) :: fs => fieldSq a (.cons (.chr sep) .once (recordSq b fs))

def recordSpell (b : Atom) : List (Atom × Int) → List Int
  | [] => [40] ++ b.spell ++ [43, 41]
  | (a, sep) :: fs => [40] ++ a.spell ++ [43, 41, sep] ++ recordSpell b fs

theorem record_spell (b : Atom) : ∀ fs, (recordSq b fs).spell = recordSpell b fs
  | [] => by simp [recordSq, fieldSq, recordSpell, Alts.spell, Sq.spell, Atom.spell, Quant.spell, QMode.spell]
  | (a, sep) :: fs => by
    simp [recordSq, fieldSq, recordSpell, Alts.spell, Sq.spell, Atom.spell, Quant.spell, QMode.spell, record_spell b fs]

/-- A field and what separates it from the next. -/
structure FieldOk (a : Atom) (sep : Int) : Prop where
  ok : a.ok = true
  steady : a.steady = true
  plain : plainB sep = true
  apart : a.set sep = false

theorem field_loop {a : Atom} {sep : Int} (h : FieldOk a sep) (s : Sq) : loopOk a (.plus .greedy) (.cons (.chr sep) .once s) = true := by
  have hm : meets a.set (fun x => (Sq.cons (.chr sep) .once s).begins x) = false := by
    refine not_meets (fun x h1 h2 => ?_)
    simp only [Sq.begins, Quant.lo, Atom.set, Bool.or_eq_true] at h2
    have : x = sep := by simpa using h2
    rw [this, h.apart] at h1; cases h1
  simp only [loopOk, h.ok, h.steady, Quant.mode]
  split
  · simp [Quant.sane, Quant.ok, Quant.lo, Quant.hi]
  · simp [Quant.sane, Quant.ok, Quant.lo, Quant.hi, hm]

theorem last_loop {b : Atom} (h1 : b.ok = true) (h2 : b.steady = true) : loopOk b (.plus .greedy) (.nil false) = true := by
  simp only [loopOk, h1, h2, Quant.mode]
  split
  · simp [Quant.sane, Quant.ok, Quant.lo, Quant.hi]
  · simp [Quant.sane, Quant.ok, Quant.lo, Quant.hi, Sq.voids]

theorem field_capOk {a : Atom} {s : Sq} (h : loopOk a (.plus .greedy) s = true) (hs : s.capOk = true) : (fieldSq a s).capOk = true := by
  simp [fieldSq, Sq.capOk, groupOk, Quant.fixed, Quant.lo, Quant.hi, h, hs]

theorem record_capOk {b : Atom} (h1 : b.ok = true) (h2 : b.steady = true) : ∀ fs : List (Atom × Int), (∀ x ∈ fs, FieldOk x.1 x.2) →
    (recordSq b fs).capOk = true
  | [], _ => field_capOk (last_loop h1 h2) rfl
  | (a, sep) :: fs, h => by
    have ha := h (a, sep) (by simp)
    refine field_capOk (field_loop ha _) ?_
    have := record_capOk h1 h2 fs (fun x hx => h x (List.mem_cons_of_mem _ hx))
    simp [Sq.capOk, Atom.ok, ha.plain, Atom.steady, Quant.sane, Quant.ok, Quant.lo, Quant.hi, atomOk, Quant.mode, Quant.fixed, this]

theorem record_tidy (b : Atom) : ∀ (fs : List (Atom × Int)) (n : Nat), (recordSq b fs).tidy n n = true
  | [], n => by simp [recordSq, fieldSq, Sq.tidy]
  | (a, sep) :: fs, n => by simp [recordSq, fieldSq, Sq.tidy, record_tidy b fs (n + 1)]

theorem record_regular {b : Atom} (h1 : b.ok = true) (h2 : b.steady = true) (fs : List (Atom × Int)) (h : ∀ x ∈ fs, FieldOk x.1 x.2) :
    (Alts.last false (recordSq b fs)).capRegular = true := by
  have e1 := record_capOk h1 h2 fs h
  have e2 := record_tidy b fs 0
  have e3 : (recordSq b fs).empty = false := by cases fs <;> rfl
  have e4 : (recordSq b fs).startsLoop = true := by
    cases fs with
    | nil => simp [recordSq, fieldSq, Sq.startsLoop, h2, Quant.fixed, Quant.lo, Quant.hi, Sq.voids]
    | cons x fs =>
      have ha := h x (by simp)
      have hs := ha.steady
      simp only [recordSq, fieldSq, Sq.startsLoop, hs]
      simp [Quant.fixed, Quant.lo, Quant.hi, Sq.solid, Atom.steady]
  simp [Alts.capRegular, Alts.capSane, e1, e2, e3, e4]

theorem record_takes (b : Atom) (fs : List (Atom × Int)) : Alts.takes (.last false (recordSq b fs)) = true := by
  cases fs <;> simp [recordSq, fieldSq, Alts.takes, Sq.takes, Quant.lo, Alts.list, Sq.eats]

theorem record_caps {b : Atom} (q : List Int) : ∀ (fs : List (Atom × Int)), (∀ x ∈ fs, FieldOk x.1 x.2) → ∀ x : Nat,
    (caps q (recordSq b fs) x).head? = fieldsAt b.set q (fs.map (fun f => (f.1.set, f.2))) x
  | [], _, x => by
    rw [recordSq, fieldSq, caps_end]
    rfl
  | (a, sep) :: fs, h, x => by
    have ha := h (a, sep) (by simp)
    rw [recordSq, fieldSq, caps_loop (Or.inl rfl)]
    · simp only [Quant.lo, caps_char, List.map_cons, fieldsAt]
      by_cases h1 : 0 < runLen a.set (q.drop x)
      · rw [if_pos (show 1 ≤ runLen a.set (q.drop x) by omega)]
        by_cases h2 : q[x + runLen a.set (q.drop x)]? = some sep
        · rw [if_pos h2, if_pos ⟨h1, h2⟩, List.head?_map, record_caps q fs (fun x hx => h x (List.mem_cons_of_mem _ hx))]
        · rw [if_neg h2, if_neg (fun h => h2 h.2)]; rfl
      · rw [if_neg (show ¬ 1 ≤ runLen a.set (q.drop x) by omega), if_neg (fun h => h1 h.1)]; rfl
    · intro n hn
      rw [caps_char, if_neg]
      intro h
      have := run_all (S := a.set) (q := q) (s := x) (Nat.le_refl _) (Nat.le_add_right x n) (by omega) h
      rw [ha.apart] at this; cases this

theorem fill_get : ∀ (l : List (Nat × Nat)) (n k : Nat) (c : Caps), (∀ k, n ≤ k → c k = none) → n ≤ k → fill c n l k = l[k - n]?
  | [], n, k, c, h, hk => by simp [fill, h k hk]
  | y :: l, n, k, c, h, hk => by
    rw [fill]
    by_cases he : k = n
    · subst he
      rw [fill_low l _ _ _ (by omega)]
      simp [Caps.with]
    · rw [fill_get l (n + 1) k _ (fun j hj => by simp [Caps.with, show ¬ j = n by omega, h j (by omega)]) (by omega)]
      rw [show k - n = (k - (n + 1)) + 1 by omega]; rfl

/-- **C62.** Records: for all fields that are characters, escapes (but `\s`) or classes that are not negated (and without `\s`), each followed by a plain
character that does not belong to it, and a last such field: matching, `next()` and a range-for with `(a+)sep(a'+)sep'…(b+)` report, from left to right
and without overlap, all the places where such fields follow each other, separated by their separators, from where the match begins; the groups
are the fields, in order, each as long as it is. -/
theorem C62_records (fs : List (Atom × Int)) (b : Atom) (hb : b.ok = true ∧ b.steady = true)
    (h : ∀ x ∈ fs, x.1.ok = true ∧ x.1.steady = true ∧ plainB x.2 = true ∧ x.1.set x.2 = false)
    (hc : ∀ c ∈ recordSpell b fs, c ∈ allChars) :
    FindsGroups (recordSpell b fs) (fs.length + 1) false
      (fun q x => (fieldsAt b.set q (fs.map (fun f => (f.1.set, f.2))) x).map (fun r => (r.1, fun k => r.2[k]?))) := by
  have h' : ∀ x ∈ fs, FieldOk x.1 x.2 := fun x hx => ⟨(h x hx).1, (h x hx).2.1, (h x hx).2.2.1, (h x hx).2.2.2⟩
  have hr := record_regular hb.1 hb.2 fs h'
  have hsp : (Alts.last false (recordSq b fs)).spell = recordSpell b fs := by simp [Alts.spell, record_spell]
  have := C50_groups_partial (.last false (recordSq b fs)) hr (by rw [hsp]; exact hc) (record_takes b fs)
  rw [hsp] at this
  have hcount : ∀ fs : List (Atom × Int), (∀ x ∈ fs, FieldOk x.1 x.2) → (recordSq b fs).count = fs.length + 1 := by
    intro fs
    have flat : ∀ a : Atom, a.steady = true → a.count = 0 := by
      intro a ha
      cases a <;> first | rfl | simp [Atom.steady] at ha
    induction fs with
    | nil => intro _; simp [recordSq, fieldSq, Sq.count, Atom.count, Alts.count, flat b hb.2]
    | cons x fs ih =>
      intro hx
      have ha := hx x (by simp)
      have := ih (fun y hy => hx y (List.mem_cons_of_mem _ hy))
      simp [recordSq, fieldSq, Sq.count, Atom.count, Alts.count, this, flat x.1 ha.steady]; omega
  have hd : ∀ fs : List (Atom × Int), (recordSq b fs).dollar = false := by
    intro fs
    induction fs with
    | nil => rfl
    | cons x fs ih => simpa [recordSq, fieldSq, Sq.dollar] using ih
  have e1 : (Alts.last false (recordSq b fs)).count = fs.length + 1 := by simpa [Alts.count] using hcount fs h'
  have e2 : (Alts.last false (recordSq b fs)).dollar = false := by simpa [Alts.dollar] using hd fs
  rw [e1, e2] at this
  refine this.congr (fun q x => ?_)
  have hcap := (sane_facts (regular_sane hr)).1
  rw [bestWay, ways_at hcap]
  simp only [capsAt, Bool.false_and, Bool.false_eq_true, if_false, List.head?_map, record_caps q fs h' x]
  cases fieldsAt b.set q (fs.map (fun f => (f.1.set, f.2))) x with
  | none => rfl
  | some r =>
    simp only [Option.map_some]
    refine congrArg some (Prod.ext rfl (funext fun k => ?_))
    simpa using fill_get r.2 0 k noCaps (fun _ _ => rfl) (Nat.zero_le _)

end ERegex.Props

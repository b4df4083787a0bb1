import Verif.Model.Match
/-!
# Single-character trees

`single t` : the tree tests exactly one character and moves only on success.  `testOf t` is the test.
-/
set_option autoImplicit false
namespace ERegex

mutual
/-- Trees that match exactly one character and do not move when they fail. -/
def single : Node → Bool
  | .exact s _ => decide (s.length = 1)
  | .range .. | .word | .any => true
  | .simple m cs => single m && cs.isEmpty
  | .alt cs => !cs.isEmpty && singles cs
  | _ => false
/-- All of a list. -/
def singles : List Node → Bool
  | [] => true
  | c :: cs => single c && singles cs
end

mutual
/-- The character test of a single-character tree. -/
def testOf : Node → Int → Bool
  | .exact s _, c => s == [c]
  | .range a b _, c => rangeTest a b c
  | .word, c => wordTest c
  | .any, c => anyTest c
  | .space, c => spaceTest c
  | .negated m, c => !testOf m c
  | .simple m _, c => testOf m c
  | .alt cs, c => testsOf cs c
  | _, _ => false
/-- One of the tests succeeds. -/
def testsOf : List Node → Int → Bool
  | [], _ => false
  | n :: ns, c => testOf n c || testsOf ns c
end

/-- One guarded character test. -/
def charStep (cx : Ctx) (p : Int → Bool) : K := guarded cx (oneChar cx p)

theorem charStep_end {cx : Ctx} {p : Int → Bool} {st : St} (h : cx.qend ≤ st.pos) :
    charStep cx p st = some { st with accepted := false } := by
  simp [charStep, guarded, h]

theorem charStep_read {cx : Ctx} {p : Int → Bool} {st : St} {c : Int} (h : st.pos < cx.qend) (hr : cx.read st.pos = some c) :
    charStep cx p st = some (if p c then { st with accepted := true, pos := st.pos + 1 } else { st with accepted := false }) := by
  have : ¬ (st.pos ≥ cx.qend) := by omega
  simp only [charStep, guarded, this, if_false, oneChar, hr]
  split <;> rfl

theorem charStep_none {cx : Ctx} {p : Int → Bool} {st : St} (h : st.pos < cx.qend) (hr : cx.read st.pos = none) :
    charStep cx p st = none := by
  have : ¬ (st.pos ≥ cx.qend) := by omega
  simp only [charStep, guarded, this, if_false, oneChar, hr]

/-- A one-character step does not look at the flag. -/
theorem charStep_flag {cx : Ctx} {p : Int → Bool} {st : St} (b : Bool) :
    charStep cx p { st with accepted := b } = charStep cx p st := by
  by_cases h : cx.qend ≤ st.pos
  · rw [charStep_end h, charStep_end (st := { st with accepted := b }) h]
  · have h' : st.pos < cx.qend := by omega
    cases hr : cx.read st.pos with
    | none => rw [charStep_none h' hr, charStep_none (st := { st with accepted := b }) h' hr]
    | some c => rw [charStep_read h' hr, charStep_read (st := { st with accepted := b }) h' hr]

theorem exact_single (cx : Ctx) (x : Int) (st : St) :
    guarded cx (exactMatch cx [x]) st = charStep cx (fun c => [x] == [c]) st := by
  by_cases h : cx.qend ≤ st.pos
  · rw [charStep_end h]; simp [guarded, h]
  · have h' : st.pos < cx.qend := by omega
    have h2 : ¬ (st.pos ≥ cx.qend) := by omega
    cases hr : cx.read st.pos with
    | none => rw [charStep_none h' hr]; simp [guarded, h2, exactMatch, exactLoop, hr]
    | some c =>
      rw [charStep_read h' hr]
      simp only [guarded, h2, if_false, exactMatch, exactLoop, hr]
      by_cases hx : x = c
      · simp [hx]
      · simp [hx]

mutual
/-- A single-character tree is exactly one guarded character test, whatever is injected. -/
theorem run_single (cx : Ctx) : ∀ (t : Node), single t = true → ∀ (inj : List K) (st : St),
    run cx t inj st = charStep cx (testOf t) st
  | .exact s d, h, inj, st => by
    simp only [single, decide_eq_true_eq] at h
    obtain ⟨x, rfl⟩ := List.length_eq_one_iff.1 h
    simp only [run]
    rw [exact_single]
    congr 1
  | .range a b d, _, inj, st => by simp only [run]; rfl
  | .word, _, inj, st => by simp only [run]; rfl
  | .any, _, inj, st => by simp only [run]; rfl
  | .negated _, h, _, _ => by simp [single] at h
  | .simple m cs, h, inj, st => by
    simp only [single, Bool.and_eq_true, List.isEmpty_iff] at h
    obtain ⟨h1, rfl⟩ := h
    have ih := run_single cx m h1 [] st
    have e : testOf (.simple m []) = testOf m := by funext c; simp [testOf]
    simp only [run, runs, simpleMatch, ih, e, dfs]
    cases hc : charStep cx (testOf m) st with
    | none => rfl
    | some st1 => by_cases ha : st1.accepted = true <;> simp [ha]
  | .alt cs, h, inj, st => by
    simp only [single, Bool.and_eq_true] at h
    have hne : cs ≠ [] := by intro e; simp [e] at h
    simp only [run]
    have e : testOf (.alt cs) = testsOf cs := by funext c; simp [testOf]
    rw [e]
    exact runs_single cx cs h.2 hne inj st
  | .space, h, _, _ => by simp [single] at h
  | .bos, h, _, _ => by simp [single] at h
  | .eol, h, _, _ => by simp [single] at h
  | .greedy .., h, _, _ => by simp [single] at h
  | .lazy .., h, _, _ => by simp [single] at h
  | .possessive .., h, _, _ => by simp [single] at h
  | .repeated .., h, _, _ => by simp [single] at h
  | .group .., h, _, _ => by simp [single] at h
/-- Alternatives of single-character trees. -/
theorem runs_single (cx : Ctx) : ∀ (cs : List Node), singles cs = true → cs ≠ [] → ∀ (inj : List K) (st : St),
    dfs (runs cx cs) inj st = charStep cx (testsOf cs) st
  | [], _, h, _, _ => absurd rfl h
  | [c], h, _, inj, st => by
    simp only [singles, Bool.and_true] at h
    have ih := run_single cx c h inj st
    have e : testsOf [c] = testOf c := by funext x; simp [testsOf]
    simp only [runs, dfs, ih, e]
  | c :: d :: cs, h, _, inj, st => by
    have h1 : single c = true ∧ singles (d :: cs) = true := by
      rw [singles] at h; simpa using h
    have ih := run_single cx c h1.1 inj st
    have ih2 := runs_single cx (d :: cs) h1.2 (by simp) []
    simp only [runs] at ih2 ⊢
    simp only [dfs, ih]
    have e : testsOf (c :: d :: cs) = fun x => testOf c x || testsOf (d :: cs) x := by funext x; rw [testsOf]
    rw [e]
    by_cases hp : cx.qend ≤ st.pos
    · rw [charStep_end hp, charStep_end hp]
      simp only [Bool.false_eq_true, if_false]
      rw [ih2, charStep_flag (st := { st with accepted := false }) true, charStep_flag, charStep_end hp]
    · have h' : st.pos < cx.qend := by omega
      cases hr : cx.read st.pos with
      | none => rw [charStep_none h' hr, charStep_none h' hr]
      | some x =>
        rw [charStep_read h' hr, charStep_read h' hr]
        cases hx : testOf c x with
        | true => simp
        | false =>
          simp only [Bool.false_eq_true, if_false, Bool.false_or]
          rw [ih2, charStep_flag (st := { st with accepted := false }) true, charStep_flag, charStep_read h' hr]
end

theorem single_sizes : (∀ t : Node, single t = true → minSize t = 1) ∧ (∀ cs : List Node, singles cs = true → cs ≠ [] →
    listMin (minSizes cs) = 1) := by
  refine ⟨fun t h => ?_, fun cs h hne => ?_⟩
  · exact (go t h)
  · exact (gos cs h hne)
where
  go : ∀ t : Node, single t = true → minSize t = 1
    | .exact s d, h => by
      simp only [single, decide_eq_true_eq] at h
      simp [minSize, h, wrap32]
    | .range .., _ => by simp [minSize]
    | .word, _ => by simp [minSize]
    | .any, _ => by simp [minSize]
    | .negated _, h => by simp [single] at h
    | .simple m cs, h => by
      simp only [single, Bool.and_eq_true, List.isEmpty_iff] at h
      obtain ⟨h1, rfl⟩ := h
      simp [minSize, go m h1, minSizes, listMin, wrap32]
    | .alt cs, h => by
      simp only [single, Bool.and_eq_true] at h
      have hne : cs ≠ [] := by intro e; simp [e] at h
      simp only [minSize]
      exact gos cs h.2 hne
    | .space, h => by simp [single] at h
    | .bos, h => by simp [single] at h
    | .eol, h => by simp [single] at h
    | .greedy .., h => by simp [single] at h
    | .lazy .., h => by simp [single] at h
    | .possessive .., h => by simp [single] at h
    | .repeated .., h => by simp [single] at h
    | .group .., h => by simp [single] at h
  gos : ∀ cs : List Node, singles cs = true → cs ≠ [] → listMin (minSizes cs) = 1
    | [], _, h => absurd rfl h
    | [c], h, _ => by
      simp only [singles, Bool.and_true] at h
      simp [minSizes, listMin, go c h]
    | c :: d :: cs, h, _ => by
      have h1 : single c = true ∧ singles (d :: cs) = true := by
        rw [singles] at h; simpa using h
      have := gos (d :: cs) h1.2 (by simp)
      simp only [minSizes] at this
      simp [minSizes, listMin, go c h1.1, this]

/-! ## trees that test one character and move past it even when the test fails -/

mutual
/-- `\s`, negated classes, and alternatives of single-character trees that end with one of these. -/
def skipping : Node → Bool
  | .space => true
  | .negated m => single m
  | .simple m cs => skipping m && cs.isEmpty
  | .alt cs => skippings cs
  | _ => false
/-- Single-character trees, the last one skipping. -/
def skippings : List Node → Bool
  | [] => false
  | [c] => skipping c
  | c :: d :: cs => single c && skippings (d :: cs)
end

/-- One guarded character test that always advances. -/
def skipStep (cx : Ctx) (p : Int → Bool) : K := fun st =>
  if st.pos ≥ cx.qend then some { st with accepted := false }
  else
    match cx.read st.pos with
    | none => none
    | some c => some { st with accepted := p c, pos := st.pos + 1 }

theorem skipStep_flag {cx : Ctx} {p : Int → Bool} {st : St} (b : Bool) :
    skipStep cx p { st with accepted := b } = skipStep cx p st := rfl

mutual
/-- A skipping tree is exactly one guarded character test that always advances. -/
theorem run_skipping (cx : Ctx) : ∀ (t : Node), skipping t = true → ∀ (inj : List K) (st : St),
    run cx t inj st = skipStep cx (testOf t) st
  | .space, _, inj, st => by
    simp only [run, guarded, skipStep, spaceMatch]
    split
    · rfl
    · split
      · rename_i h; simp [h]
      · rename_i h; simp [h, testOf]
  | .negated m, h, inj, st => by
    simp only [skipping] at h
    have ih := run_single cx m h []
    simp only [run, negatedMatch, skipStep, ih]
    by_cases hp : st.pos ≥ cx.qend
    · simp [hp]
    · have h' : st.pos < cx.qend := by omega
      simp only [hp, if_false]
      cases hr : cx.read st.pos with
      | none => rw [charStep_none h' hr]
      | some c =>
        rw [charStep_read h' hr]
        cases ht : testOf m c <;> simp [testOf, ht]
  | .simple m cs, h, inj, st => by
    simp only [skipping, Bool.and_eq_true, List.isEmpty_iff] at h
    obtain ⟨h1, rfl⟩ := h
    have ih := run_skipping cx m h1 [] st
    have e : testOf (.simple m []) = testOf m := by funext c; simp [testOf]
    simp only [run, runs, simpleMatch, ih, e, dfs]
    cases hc : skipStep cx (testOf m) st with
    | none => rfl
    | some st1 => by_cases ha : st1.accepted = true <;> simp [ha]
  | .alt cs, h, inj, st => by
    simp only [skipping] at h
    simp only [run]
    have e : testOf (.alt cs) = testsOf cs := by funext c; simp [testOf]
    rw [e]
    exact runs_skipping cx cs h inj st
  | .exact .., h, _, _ => by simp [skipping] at h
  | .range .., h, _, _ => by simp [skipping] at h
  | .word, h, _, _ => by simp [skipping] at h
  | .any, h, _, _ => by simp [skipping] at h
  | .bos, h, _, _ => by simp [skipping] at h
  | .eol, h, _, _ => by simp [skipping] at h
  | .greedy .., h, _, _ => by simp [skipping] at h
  | .lazy .., h, _, _ => by simp [skipping] at h
  | .possessive .., h, _, _ => by simp [skipping] at h
  | .repeated .., h, _, _ => by simp [skipping] at h
  | .group .., h, _, _ => by simp [skipping] at h
/-- Alternatives. -/
theorem runs_skipping (cx : Ctx) : ∀ (cs : List Node), skippings cs = true → ∀ (inj : List K) (st : St),
    dfs (runs cx cs) inj st = skipStep cx (testsOf cs) st
  | [], h, _, _ => by simp [skippings] at h
  | [c], h, inj, st => by
    simp only [skippings] at h
    have ih := run_skipping cx c h inj st
    have e : testsOf [c] = testOf c := by funext x; simp [testsOf]
    simp only [runs, dfs, ih, e]
  | c :: d :: cs, h, inj, st => by
    have h1 : single c = true ∧ skippings (d :: cs) = true := by
      rw [skippings] at h; simpa using h
    have ih := run_single cx c h1.1 inj st
    have ih2 := runs_skipping cx (d :: cs) h1.2 []
    simp only [runs] at ih2 ⊢
    simp only [dfs, ih]
    have e : testsOf (c :: d :: cs) = fun x => testOf c x || testsOf (d :: cs) x := by funext x; rw [testsOf]
    rw [e]
    by_cases hp : cx.qend ≤ st.pos
    · rw [charStep_end hp]
      simp only [Bool.false_eq_true, if_false]
      rw [ih2]
      simp [skipStep, hp]
    · have h' : st.pos < cx.qend := by omega
      have hp' : ¬ (st.pos ≥ cx.qend) := by omega
      cases hr : cx.read st.pos with
      | none => rw [charStep_none h' hr]; simp [skipStep, hp', hr]
      | some x =>
        rw [charStep_read h' hr]
        cases hx : testOf c x with
        | true => simp [skipStep, hp', hr, hx]
        | false =>
          simp only [Bool.false_eq_true, if_false]
          rw [ih2]
          simp [skipStep, hp', hr, hx]
end

/-! ## reading the query -/

theorem read_query (cx : Ctx) (p : Int) (h0 : 0 ≤ p) (h1 : p < cx.qend) : cx.read p = cx.query[p.toNat]? := by
  unfold Ctx.read Ctx.qend at *
  have hn : ¬ (p + cx.pre.length < 0) := by omega
  rw [if_neg hn]
  have e : (p + cx.pre.length).toNat = cx.pre.length + p.toNat := by omega
  rw [e, List.append_assoc, List.getElem?_append_right (by omega), Nat.add_sub_cancel_left,
    List.getElem?_append_left (by omega)]

theorem read_some (cx : Ctx) (p : Int) (h0 : 0 ≤ p) (h1 : p < cx.qend) :
    ∃ c, cx.read p = some c ∧ cx.query[p.toNat]? = some c := by
  rw [read_query cx p h0 h1]
  have : p.toNat < cx.query.length := by unfold Ctx.qend at h1; omega
  exact ⟨_, List.getElem?_eq_getElem this, List.getElem?_eq_getElem this⟩

/-- The byte after the query. -/
theorem read_end (cx : Ctx) : cx.read cx.qend = cx.post.head? := by
  unfold Ctx.read Ctx.qend
  have hn : ¬ ((cx.query.length : Int) + cx.pre.length < 0) := by omega
  rw [if_neg hn]
  have e : ((cx.query.length : Int) + cx.pre.length).toNat = (cx.pre ++ cx.query).length := by simp; omega
  rw [e, List.getElem?_append_right (Nat.le_refl _)]
  simp [List.head?_eq_getElem?]

end ERegex

import Verif.Proofs.Memory
import Verif.Model.TokenIter
/-!
# Matching does not depend on where the text lies

A tree without `^` does on the rest of a query what it does on the query itself, with all positions shifted: a relational
induction over the tree, with equality of the outcomes (undefined behaviour included).
-/
set_option autoImplicit false
namespace ERegex

/-- A view moved by `d`. -/
def shiftView (d : Int) (v : View) : View := v.map (fun x => (x.1 + d, x.2 + d))

/-- A state moved by `d`. -/
def St.shift (d : Int) (st : St) : St :=
  { start := st.start + d, pos := st.pos + d, groups := st.groups.map (shiftView d), accepted := st.accepted }

mutual
/-- No `^`. -/
def Node.unbound : Node → Bool
  | .bos => false
  | .exact .. | .range .. | .space | .word | .any | .eol => true
  | .negated m => m.unbound
  | .simple m cs | .greedy m _ _ cs | .lazy m _ _ cs | .possessive m _ _ cs | .repeated m _ cs | .group m _ cs => m.unbound && unbounds cs
  | .alt cs => unbounds cs
def unbounds : List Node → Bool
  | [] => true
  | c :: cs => c.unbound && unbounds cs
end

/-- `k'` does `d` further on what `k` does. -/
def KSh (d : Int) (k k' : K) : Prop := ∀ st, k' (st.shift d) = (k st).map (St.shift d)
def MSh (d : Int) (f f' : M) : Prop := ∀ inj inj', All2 (KSh d) inj inj' → KSh d (f inj) (f' inj')

section
variable {d : Int}

theorem shift_acc (st : St) : (st.shift d).accepted = st.accepted := rfl
theorem shift_pos (st : St) : (st.shift d).pos = st.pos + d := rfl
theorem shift_start (st : St) : (st.shift d).start = st.start + d := rfl
theorem ite_acc {α : Type} (st : St) (x y : α) : (if (st.shift d).accepted = true then x else y) = if st.accepted = true then x else y := rfl
theorem shift_set_acc (st : St) (b : Bool) : { st.shift d with accepted := b } = ({ st with accepted := b } : St).shift d := rfl
theorem shift_set_pos (st : St) (p : Int) : { st.shift d with pos := p + d } = ({ st with pos := p } : St).shift d := rfl
theorem shift_set_both (st : St) (b : Bool) (p : Int) : { st.shift d with accepted := b, pos := p + d } = ({ st with accepted := b, pos := p } : St).shift d := rfl

theorem dfs_sh {cs cs' : List M} (hc : All2 (MSh d) cs cs') : ∀ {inj inj' : List K}, All2 (KSh d) inj inj' → KSh d (dfs cs inj) (dfs cs' inj') := by
  induction hc with
  | nil => intro inj inj' _ st; rfl
  | cons hf hr ih =>
    intro inj inj' hi st
    cases hr with
    | nil => exact hf _ _ hi st
    | cons hg hr =>
      simp only [dfs]
      rw [hf _ _ hi st]
      rename_i f f' _ _ _ _
      cases f inj st with
      | none => rfl
      | some st' =>
        simp only [Option.map_some, ite_acc]
        split
        · rfl
        · exact ih .nil { st' with accepted := true }

theorem dfsInj_sh {inj inj' : List K} (hi : All2 (KSh d) inj inj') : KSh d (dfsInj inj) (dfsInj inj') :=
  dfs_sh (All2.map (fun _ _ h => fun _ _ _ => h) hi) .nil
end

/-- `a` is `b` seen from address `d`. -/
structure Ctx.Moved (a b : Ctx) (d : Int) : Prop where
  qend : a.qend + d = b.qend
  read : ∀ p, b.read (p + d) = a.read p

section
variable {d : Int} {a b : Ctx} (H : a.Moved b d)
include H

theorem guarded_sh {m m' : K} (h : KSh d m m') : KSh d (guarded a m) (guarded b m') := by
  intro st
  have := H.qend
  have hp := shift_pos (d := d) st
  simp only [guarded]
  by_cases h1 : st.pos ≥ a.qend
  · rw [if_pos h1, if_pos (by omega)]; rfl
  · rw [if_neg h1, if_neg (by omega)]; exact h st

theorem oneChar_sh {p : Int → Bool} : KSh d (oneChar a p) (oneChar b p) := by
  intro st
  simp only [oneChar, shift_pos, H.read]
  cases a.read st.pos with
  | none => rfl
  | some c =>
    simp only
    split
    · simp [St.shift, Int.add_right_comm]
    · rfl

theorem space_sh : KSh d (spaceMatch a) (spaceMatch b) := by
  intro st
  simp only [spaceMatch, shift_pos, H.read]
  cases a.read st.pos with
  | none => rfl
  | some c => simp [St.shift, Int.add_right_comm]

theorem exactLoop_sh (s0 : Int) : ∀ s : List Int, KSh d (exactLoop a s0 s) (exactLoop b (s0 + d) s)
  | [] => fun st => rfl
  | c :: cs => fun st => by
    simp only [exactLoop, shift_pos, H.read]
    cases a.read st.pos with
    | none => rfl
    | some x =>
      simp only
      split
      · rfl
      · have := exactLoop_sh s0 cs { st with pos := st.pos + 1 }
        rw [← this]
        congr 1
        simp [St.shift, Int.add_right_comm]

theorem exact_sh {s : List Int} : KSh d (exactMatch a s) (exactMatch b s) := fun st => exactLoop_sh H st.pos s { st with accepted := true }

theorem eol_sh : KSh d (eolMatch a) (eolMatch b) := by
  intro st
  have := H.qend
  have hp := shift_pos (d := d) st
  simp only [eolMatch]
  by_cases h1 : st.pos > a.qend
  · rw [if_pos h1, if_pos (by omega)]; rfl
  · rw [if_neg h1, if_neg (by omega), hp, H.read]
    cases a.read st.pos with
    | none => rfl
    | some c =>
      simp only
      split
      · simp [St.shift, Int.add_right_comm]
      · have : decide (st.pos + d = b.qend) = decide (st.pos = a.qend) := by rw [decide_eq_decide]; omega
        rw [this]; rfl

theorem negated_sh {m m' : K} (h : KSh d m m') : KSh d (negatedMatch a m) (negatedMatch b m') := by
  intro st
  have := H.qend
  have hp := shift_pos (d := d) st
  simp only [negatedMatch]
  by_cases h1 : st.pos ≥ a.qend
  · rw [if_pos h1, if_pos (by omega)]; rfl
  · rw [if_neg h1, if_neg (by omega), h st]
    cases m st with
    | none => rfl
    | some st' =>
      simp only [Option.map_some, ite_acc]
      split
      · rfl
      · simp [St.shift, Int.add_right_comm]

end

section
variable {d : Int}

theorem simple_sh {m m' : K} {cs cs' : List M} (hm : KSh d m m') (hc : All2 (MSh d) cs cs') : MSh d (simpleMatch m cs) (simpleMatch m' cs') := by
  intro inj inj' hi st
  simp only [simpleMatch]
  rw [hm st]
  cases m st with
  | none => rfl
  | some st1 =>
    simp only [Option.map_some, ite_acc]
    split
    · rw [dfs_sh hc hi st1]
      cases dfs cs inj st1 with
      | none => rfl
      | some st2 =>
        simp only [Option.map_some, ite_acc]
        split <;> rfl
    · rfl

/-- The state of a loop, moved. -/
def shiftR {α : Type} (d : Int) (r : α × St) : α × St := (r.1, r.2.shift d)

theorem repLoop_sh {m m' : K} (hm : KSh d m m') : ∀ (n : Nat) (st : St), repLoop m' n (st.shift d) = (repLoop m n st).map (shiftR d)
  | 0, st => rfl
  | n + 1, st => by
    simp only [repLoop]
    rw [hm st]
    cases m st with
    | none => rfl
    | some st' =>
      simp only [Option.map_some, ite_acc]
      split
      · exact repLoop_sh hm n st'
      · rfl

theorem repeated_sh {m m' : K} {n : Nat} {cs cs' : List M} (hm : KSh d m m') (hc : All2 (MSh d) cs cs') :
    MSh d (repeatedMatch m n cs) (repeatedMatch m' n cs') := by
  intro inj inj' hi st
  simp only [repeatedMatch]
  rw [repLoop_sh hm n st]
  cases repLoop m n st with
  | none => rfl
  | some r =>
    obtain ⟨b, st'⟩ := r
    cases b with
    | false => rfl
    | true => exact dfs_sh hc .nil st'

theorem growLoop_sh {m m' : K} (hm : KSh d m m') : ∀ (n k : Nat) (st : St), growLoop m' n k (st.shift d) = (growLoop m n k st).map (shiftR d)
  | 0, k, st => rfl
  | n + 1, k, st => by
    simp only [growLoop]
    rw [hm st]
    cases m st with
    | none => rfl
    | some st' =>
      simp only [Option.map_some, ite_acc]
      split
      · exact growLoop_sh hm n (k + 1) st'
      · rfl

theorem scanBack_sh {m m' : K} (hm : KSh d m m') : ∀ (n : Nat) (it : Int), KSh d (scanBack m n it) (scanBack m' n (it + d))
  | 0, it => fun st => rfl
  | n + 1, it => fun st => by
    simp only [scanBack]
    rw [shift_set_pos, hm]
    cases m { st with pos := it } with
    | none => rfl
    | some st' =>
      simp only [Option.map_some, ite_acc]
      split
      · rfl
      · have := scanBack_sh hm n (it - 1) st'
        rw [show it - 1 + d = it + d - 1 by omega] at this
        exact this

theorem btLoop_sh {bt bt' m m' : K} (hb : KSh d bt bt') (hm : KSh d m m') (start : Int) : ∀ (n : Nat) (st : St),
    btLoop bt' m' (start + d) n (st.shift d) = (btLoop bt m start n st).map (shiftR d)
  | 0, st => rfl
  | n + 1, st => by
    simp only [btLoop]
    rw [hb st]
    cases bt st with
    | none => rfl
    | some st' =>
      simp only [Option.map_some, ite_acc]
      split
      · rfl
      · simp only [shift_pos]
        rw [show st'.pos + d - (start + d) = st'.pos - start by omega, show st'.pos + d - 1 = st'.pos - 1 + d by omega, scanBack_sh hm _ _ st']
        cases scanBack m (st'.pos - start).toNat (st'.pos - 1) st' with
        | none => rfl
        | some st'' => exact btLoop_sh hb hm start n st''

theorem backtrack_sh {cs cs' : List M} {inj inj' : List K} (hc : All2 (MSh d) cs cs') (hi : All2 (KSh d) inj inj') :
    KSh d (greedyBacktrack cs inj) (greedyBacktrack cs' inj') := by
  intro st
  simp only [greedyBacktrack, ← hc.isEmpty]
  split
  · rw [dfsInj_sh hi st]
    cases dfsInj inj st <;> rfl
  · exact dfs_sh hc .nil st

theorem optional_sh {m m' : K} {w : Nat} {cs cs' : List M} (hm : KSh d m m') (hc : All2 (MSh d) cs cs') :
    MSh d (optionalMatch m w cs) (optionalMatch m' w cs') := by
  intro inj inj' hi st
  simp only [optionalMatch]
  rw [hm st]
  cases m st with
  | none => rfl
  | some st1 =>
    simp only [Option.map_some]
    rw [backtrack_sh hc hi st1]
    cases greedyBacktrack cs inj st1 with
    | none => rfl
    | some st2 =>
      have : decide ((st2.shift d).pos > (st2.shift d).start) = decide (st2.pos > st2.start) := by
        rw [decide_eq_decide, shift_pos, shift_start]; omega
      simp only [Option.map_some]
      rw [this, shift_acc]
      split
      · have := backtrack_sh hc hi { st2 with pos := st2.pos - w }
        rw [← this, shift_pos, show st2.pos + d - (w : Int) = st2.pos - w + d by omega]
        rfl
      · rfl

theorem greedy_sh {m m' : K} {lo hi : Nat} {cs cs' : List M} (hm : KSh d m m') (hc : All2 (MSh d) cs cs') :
    MSh d (greedyMatch m lo hi cs) (greedyMatch m' lo hi cs') := by
  intro inj inj' hi' st
  simp only [greedyMatch]
  rw [repLoop_sh hm lo st]
  cases repLoop m lo st with
  | none => rfl
  | some r =>
    obtain ⟨b, st1⟩ := r
    cases b with
    | false => rfl
    | true =>
      simp only [Option.map_some, shiftR]
      rw [growLoop_sh hm (hi - lo) lo st1]
      cases growLoop m (hi - lo) lo st1 with
      | none => rfl
      | some r =>
        obtain ⟨k, st2⟩ := r
        simp only [Option.map_some, shiftR, shift_pos]
        rw [btLoop_sh (backtrack_sh hc hi') hm st1.pos (k - lo) st2]
        cases btLoop (greedyBacktrack cs inj) m st1.pos (k - lo) st2 with
        | none => rfl
        | some r =>
          obtain ⟨b, st3⟩ := r
          cases b with
          | true => rfl
          | false => exact dfs_sh hc .nil { st3 with accepted := true }

theorem lazyLoop_sh {a b : Ctx} (H : a.Moved b d) {m m' : K} {cs cs' : List M} {inj inj' : List K} {start : Int} (hm : KSh d m m')
    (hc : All2 (MSh d) cs cs') (hi : All2 (KSh d) inj inj') : ∀ (n : Nat) (st : St),
    lazyLoop b m' cs' inj' (start + d) n (st.shift d) = (lazyLoop a m cs inj start n st).map (shiftR d)
  | 0, st => rfl
  | n + 1, st => by
    have hq := H.qend
    have hp := shift_pos (d := d) st
    simp only [lazyLoop, ← hc.isEmpty]
    by_cases h1 : st.pos < a.qend
    · rw [if_pos h1, if_pos (by omega)]
      split
      · rw [dfsInj_sh hi st]
        cases dfsInj inj st with
        | none => rfl
        | some st1 =>
          simp only [Option.map_some, ite_acc]
          split
          · rfl
          · have h5 : m' ⟨(st1.shift d).start, (st.shift d).pos, (st1.shift d).groups, (st1.shift d).accepted⟩ = (m { st1 with pos := st.pos }).map (St.shift d) :=
              hm { st1 with pos := st.pos }
            rw [h5]
            cases m { st1 with pos := st.pos } with
            | none => rfl
            | some st2 =>
              simp only [Option.map_some, ite_acc]
              split
              · exact lazyLoop_sh H hm hc hi n st2
              · rfl
      · rw [dfs_sh hc .nil st]
        cases dfs cs [] st with
        | none => rfl
        | some st1 =>
          simp only [Option.map_some, ite_acc]
          split
          · rfl
          · rw [hm]
            cases m st1 with
            | none => rfl
            | some st2 =>
              simp only [Option.map_some, ite_acc]
              split
              · exact lazyLoop_sh H hm hc hi n st2
              · rfl
    · rw [if_neg h1, if_neg (by omega)]; rfl

theorem lazy_sh {a b : Ctx} (H : a.Moved b d) {m m' : K} {lo hi : Nat} {cs cs' : List M} (hm : KSh d m m') (hc : All2 (MSh d) cs cs') :
    MSh d (lazyMatch a m lo hi cs) (lazyMatch b m' lo hi cs') := by
  intro inj inj' hi' st
  simp only [lazyMatch]
  rw [repLoop_sh hm lo st]
  cases repLoop m lo st with
  | none => rfl
  | some r =>
    obtain ⟨b, st1⟩ := r
    cases b with
    | false => rfl
    | true =>
      simp only [Option.map_some, shiftR, shift_pos]
      rw [lazyLoop_sh H hm hc hi' (hi - lo) st1]
      cases lazyLoop a m cs inj st.pos (hi - lo) st1 with
      | none => rfl
      | some r =>
        obtain ⟨b, st2⟩ := r
        cases b with
        | true => rfl
        | false => exact dfs_sh hc .nil st2

theorem possLoop_sh {m m' : K} {lo : Nat} (hm : KSh d m m') : ∀ (n i : Nat) (last : Int) (st : St),
    possLoop m' lo n i (last + d) (st.shift d) = (possLoop m lo n i last st).map (shiftR d)
  | 0, i, last, st => rfl
  | n + 1, i, last, st => by
    simp only [possLoop]
    rw [hm st]
    cases m st with
    | none => rfl
    | some st' =>
      simp only [Option.map_some, ite_acc]
      split
      · exact possLoop_sh hm n (i + 1) st'.pos st'
      · split <;> rfl

theorem possessive_sh {m m' : M} {lo hi : Nat} {cs cs' : List M} (hm : MSh d m m') (hc : All2 (MSh d) cs cs') :
    MSh d (possessiveMatch m lo hi cs) (possessiveMatch m' lo hi cs') := by
  intro inj inj' hi' st
  simp only [possessiveMatch, shift_pos]
  rw [possLoop_sh (hm inj inj' hi') hi 0 st.pos st]
  cases possLoop (m inj) lo hi 0 st.pos st with
  | none => rfl
  | some r =>
    obtain ⟨b, st'⟩ := r
    cases b with
    | false => rfl
    | true => exact dfs_sh hc .nil st'

theorem group_sh {m m' : M} {idx : Nat} {cs cs' : List M} (hm : MSh d m m') (hc : All2 (MSh d) cs cs') :
    MSh d (groupMatch m idx cs) (groupMatch m' idx cs') := by
  intro inj inj' hi st
  have hown : All2 (KSh d) (cs.map (fun c => c [])) (cs'.map (fun c => c [])) := All2.map (fun _ _ h => h [] [] .nil) hc
  simp only [groupMatch]
  rw [hm _ _ hown st]
  cases m (cs.map (fun c => c [])) st with
  | none => rfl
  | some st' =>
    simp only [Option.map_some, ite_acc]
    split
    · have : (st'.shift d).groups.length = st'.groups.length := by simp [St.shift]
      rw [this]
      split
      · rw [← dfs_sh hc (hown.append hi)]
        congr 1
        simp [St.shift, List.map_set, shiftView]
      · rfl
    · rfl
end

mutual
theorem run_sh {d : Int} {a b : Ctx} (H : a.Moved b d) : ∀ t : Node, t.unbound = true → MSh d (run a t) (run b t)
  | .exact s _, _ => fun _ _ _ => guarded_sh H (exact_sh H)
  | .range x y _, _ => fun _ _ _ => guarded_sh H (oneChar_sh H)
  | .space, _ => fun _ _ _ => guarded_sh H (space_sh H)
  | .word, _ => fun _ _ _ => guarded_sh H (oneChar_sh H)
  | .any, _ => fun _ _ _ => guarded_sh H (oneChar_sh H)
  | .bos, h => by simp [Node.unbound] at h
  | .eol, _ => fun _ _ _ => eol_sh H
  | .negated m, h => fun _ _ _ => negated_sh H (run_sh H m (by simpa [Node.unbound] using h) [] [] .nil)
  | .simple m cs, h => by
    simp only [Node.unbound, Bool.and_eq_true] at h
    exact simple_sh (run_sh H m h.1 [] [] .nil) (runs_sh H cs h.2)
  | .alt cs, h => by
    simp only [Node.unbound] at h
    exact fun _ _ hi => dfs_sh (runs_sh H cs h) hi
  | .greedy m lo hi cs, h => by
    simp only [Node.unbound, Bool.and_eq_true] at h
    simp only [run]
    split
    · exact optional_sh (run_sh H m h.1 [] [] .nil) (runs_sh H cs h.2)
    · exact greedy_sh (run_sh H m h.1 [] [] .nil) (runs_sh H cs h.2)
  | .lazy m lo hi cs, h => by
    simp only [Node.unbound, Bool.and_eq_true] at h
    exact lazy_sh H (run_sh H m h.1 [] [] .nil) (runs_sh H cs h.2)
  | .possessive m lo hi cs, h => by
    simp only [Node.unbound, Bool.and_eq_true] at h
    exact possessive_sh (run_sh H m h.1) (runs_sh H cs h.2)
  | .repeated m n cs, h => by
    simp only [Node.unbound, Bool.and_eq_true] at h
    exact repeated_sh (run_sh H m h.1 [] [] .nil) (runs_sh H cs h.2)
  | .group m idx cs, h => by
    simp only [Node.unbound, Bool.and_eq_true] at h
    exact group_sh (run_sh H m h.1) (runs_sh H cs h.2)
theorem runs_sh {d : Int} {a b : Ctx} (H : a.Moved b d) : ∀ cs : List Node, unbounds cs = true → All2 (MSh d) (runs a cs) (runs b cs)
  | [], _ => .nil
  | c :: cs, h => by
    simp only [unbounds, Bool.and_eq_true] at h
    exact .cons (run_sh H c h.1) (runs_sh H cs h.2)
end

/-- The rest of the query from `e` on. -/
theorem sub_moved (cx : Ctx) {e : Nat} (he : e ≤ cx.query.length) : (cx.sub e).Moved cx (e : Int) := by
  refine ⟨by simp only [Ctx.qend, Ctx.sub, List.length_drop]; omega, fun p => ?_⟩
  have hl : (cx.query.take e).length = e := by simp; omega
  simp only [Ctx.read, Ctx.sub, List.length_append, hl]
  have h1 : cx.pre ++ cx.query.take e ++ cx.query.drop e ++ cx.post = cx.pre ++ cx.query ++ cx.post := by
    rw [List.append_assoc cx.pre, List.take_append_drop]
  rw [h1]
  have h2 : p + (e : Int) + (cx.pre.length : Int) = p + ((cx.pre.length + e : Nat) : Int) := by omega
  rw [h2]

end ERegex

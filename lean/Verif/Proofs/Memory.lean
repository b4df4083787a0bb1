import Verif.Model.Match
/-!
# More readable memory does not change a result

If a match finishes without undefined behaviour in a memory, it finishes with the same result in every memory that contains
it and holds the same query.
-/
set_option autoImplicit false
namespace ERegex

/-- The same query, in a memory with at least the same readable bytes. -/
structure Ctx.Le (a b : Ctx) : Prop where
  query : a.query = b.query
  read : ∀ p c, a.read p = some c → b.read p = some c

theorem Ctx.Le.qend {a b : Ctx} (h : a.Le b) : a.qend = b.qend := by simp [Ctx.qend, h.query]

/-- The query alone is contained in every memory around it. -/
theorem ctx_bare_le (cx : Ctx) : ({ pre := [], query := cx.query, post := [] } : Ctx).Le cx := by
  refine ⟨rfl, ?_⟩
  intro p c h
  unfold Ctx.read at *
  simp only [List.length_nil, List.nil_append, List.append_nil] at h
  split at h
  · simp at h
  · rename_i hp
    have hlt : p.toNat < cx.query.length := by
      have := List.getElem?_eq_some_iff.1 h
      obtain ⟨hh, _⟩ := this
      have e : (p + ((0 : Nat) : Int)).toNat = p.toNat := by simp
      rw [e] at hh; exact hh
    have e : (p + ((0 : Nat) : Int)).toNat = p.toNat := by simp
    rw [e] at h
    have hp' : ¬ (p + cx.pre.length < 0) := by omega
    rw [if_neg hp']
    have e2 : (p + cx.pre.length).toNat = cx.pre.length + p.toNat := by omega
    rw [e2, List.append_assoc, List.getElem?_append_right (by omega), Nat.add_sub_cancel_left,
      List.getElem?_append_left hlt]
    exact h

/-- The query with its first following byte is contained in every memory that has them. -/
theorem ctx_nul_le (cx : Ctx) (z : Int) (h : cx.post.head? = some z) :
    ({ pre := [], query := cx.query, post := [z] } : Ctx).Le cx := by
  refine ⟨rfl, ?_⟩
  intro p c hr
  unfold Ctx.read at *
  simp only [List.length_nil, List.nil_append] at hr
  obtain ⟨post', hpost⟩ : ∃ l, cx.post = z :: l := by
    cases hp : cx.post with
    | nil => simp [hp] at h
    | cons a l => simp [hp] at h; exact ⟨l, by rw [h]⟩
  split at hr
  · simp at hr
  · rename_i hp
    have e : (p + ((0 : Nat) : Int)).toNat = p.toNat := by simp
    rw [e] at hr
    have hp' : ¬ (p + cx.pre.length < 0) := by omega
    rw [if_neg hp']
    have e2 : (p + cx.pre.length).toNat = cx.pre.length + p.toNat := by omega
    rw [e2, List.append_assoc, List.getElem?_append_right (by omega), Nat.add_sub_cancel_left, hpost]
    have e3 : cx.query ++ z :: post' = (cx.query ++ [z]) ++ post' := by simp
    rw [e3, List.getElem?_append_left]
    · exact hr
    · obtain ⟨hh, _⟩ := List.getElem?_eq_some_iff.1 hr
      exact hh

/-- Element-wise relation of lists. -/
inductive All2 {α β : Type} (R : α → β → Prop) : List α → List β → Prop
  | nil : All2 R [] []
  | cons {a b as bs} : R a b → All2 R as bs → All2 R (a :: as) (b :: bs)

theorem All2.map {α β γ δ : Type} {R : α → β → Prop} {S : γ → δ → Prop} {f : α → γ} {g : β → δ}
    (h : ∀ a b, R a b → S (f a) (g b)) {as : List α} {bs : List β} (hl : All2 R as bs) : All2 S (as.map f) (bs.map g) := by
  induction hl with
  | nil => exact .nil
  | cons hab _ ih => exact .cons (h _ _ hab) ih

theorem All2.append {α β : Type} {R : α → β → Prop} {a c : List α} {b d : List β} (h1 : All2 R a b) (h2 : All2 R c d) :
    All2 R (a ++ c) (b ++ d) := by
  induction h1 with
  | nil => exact h2
  | cons hab _ ih => exact .cons hab ih

theorem All2.isEmpty {α β : Type} {R : α → β → Prop} {a : List α} {b : List β} (h : All2 R a b) : a.isEmpty = b.isEmpty := by
  cases h <;> rfl

/-- `k'` does the same as `k` wherever `k` is defined. -/
def KLe (k k' : K) : Prop := ∀ st st', k st = some st' → k' st = some st'
/-- The same for nodes. -/
def MLe (f f' : M) : Prop := ∀ inj inj', All2 KLe inj inj' → KLe (f inj) (f' inj')

theorem dfs_le {cs cs' : List M} (hc : All2 MLe cs cs') : ∀ {inj inj' : List K}, All2 KLe inj inj' →
    KLe (dfs cs inj) (dfs cs' inj') := by
  induction hc with
  | nil => intro inj inj' _ st st' h; simpa [dfs] using h
  | @cons f f' cs cs' hf hcs ih =>
    intro inj inj' hi st st' h
    cases hcs with
    | nil => simp only [dfs] at h ⊢; exact hf inj inj' hi st st' h
    | @cons g g' gs gs' hg hgs =>
      simp only [dfs] at h ⊢
      split at h
      · simp at h
      · rename_i st1 h1
        rw [hf inj inj' hi st st1 h1]
        simp only
        split at h
        · rename_i ha; simpa [ha] using h
        · rename_i ha
          simp only [ha]
          exact ih .nil _ _ h

theorem dfsInj_le {inj inj' : List K} (hi : All2 KLe inj inj') : KLe (dfsInj inj) (dfsInj inj') :=
  dfs_le (hi.map (fun _ _ h _ _ _ => h)) .nil

section
variable {a b : Ctx} (H : a.Le b)
include H

theorem guarded_le {m m' : K} (h : KLe m m') : KLe (guarded a m) (guarded b m') := by
  intro st st' e
  simp only [guarded, ← H.qend] at e ⊢
  split at e
  · rename_i hp; simpa [hp] using e
  · rename_i hp; simp only [hp, if_false]; exact h _ _ e

theorem oneChar_le {p : Int → Bool} : KLe (oneChar a p) (oneChar b p) := by
  intro st st' e
  simp only [oneChar] at e ⊢
  split at e
  · simp at e
  · rename_i c hc; rw [H.read _ _ hc]; exact e

theorem space_le : KLe (spaceMatch a) (spaceMatch b) := by
  intro st st' e
  simp only [spaceMatch] at e ⊢
  split at e
  · simp at e
  · rename_i c hc; rw [H.read _ _ hc]; exact e

theorem exactLoop_le (s0 : Int) : ∀ s : List Int, KLe (exactLoop a s0 s) (exactLoop b s0 s) := by
  intro s
  induction s with
  | nil => intro st st' e; exact e
  | cons c s ih =>
    intro st st' e
    simp only [exactLoop] at e ⊢
    split at e
    · simp at e
    · rename_i d hd
      rw [H.read _ _ hd]
      simp only
      split at e
      · rename_i hne; simpa [hne] using e
      · rename_i heq; simp only [heq, if_false]; exact ih _ _ e

theorem exact_le {s : List Int} : KLe (exactMatch a s) (exactMatch b s) := by
  intro st st' e
  exact exactLoop_le H _ _ _ _ e

theorem bos_le : KLe (bosMatch a) (bosMatch b) := by
  intro st st' e
  simp only [bosMatch, ← H.qend] at e ⊢
  exact e

theorem eol_le : KLe (eolMatch a) (eolMatch b) := by
  intro st st' e
  simp only [eolMatch, ← H.qend] at e ⊢
  split at e
  · rename_i hp; simpa [hp] using e
  · rename_i hp
    simp only [hp, if_false]
    split at e
    · simp at e
    · rename_i d hd; rw [H.read _ _ hd]; exact e

theorem negated_le {m m' : K} (h : KLe m m') : KLe (negatedMatch a m) (negatedMatch b m') := by
  intro st st' e
  simp only [negatedMatch, ← H.qend] at e ⊢
  split at e
  · rename_i hp; simpa [hp] using e
  · rename_i hp
    simp only [hp, if_false]
    split at e
    · simp at e
    · rename_i st1 h1; rw [h _ _ h1]; exact e

theorem lazyLoop_le {m m' : K} {cs cs' : List M} {inj inj' : List K} {start : Int} (hm : KLe m m') (hc : All2 MLe cs cs')
    (hi : All2 KLe inj inj') : ∀ (n : Nat) (st : St) (r : Bool × St), lazyLoop a m cs inj start n st = some r →
    lazyLoop b m' cs' inj' start n st = some r := by
  intro n
  induction n with
  | zero => intro st r e; exact e
  | succ n ih =>
    intro st r e
    simp only [lazyLoop, ← H.qend, ← hc.isEmpty] at e ⊢
    split at e
    · rename_i hp
      simp only [hp, if_true]
      split at e
      · rename_i he
        simp only [he, if_true]
        split at e
        · simp at e
        · rename_i st1 h1
          rw [dfsInj_le hi _ _ h1]
          simp only
          split at e
          · rename_i ha; simpa [ha] using e
          · rename_i ha
            rw [if_neg ha]
            split at e
            · simp at e
            · rename_i st2 h2
              have h2' := hm _ _ h2
              rw [h2']
              simp only
              split at e
              · rename_i hb; simp only [hb, if_true]; exact ih _ _ e
              · rename_i hb; simpa [hb] using e
      · rename_i he
        simp only [he]
        split at e
        · simp at e
        · rename_i st1 h1
          simp only [Bool.false_eq_true, if_false]
          rw [dfs_le hc .nil _ _ h1]
          simp only
          split at e
          · rename_i ha; simpa [ha] using e
          · rename_i ha
            rw [if_neg ha]
            split at e
            · simp at e
            · rename_i st2 h2
              have h2' := hm _ _ h2
              rw [h2']
              simp only
              split at e
              · rename_i hb; simp only [hb, if_true]; exact ih _ _ e
              · rename_i hb; simpa [hb] using e
    · rename_i hp; simpa [hp] using e

end

theorem simple_le {m m' : K} {cs cs' : List M} (hm : KLe m m') (hc : All2 MLe cs cs') :
    MLe (simpleMatch m cs) (simpleMatch m' cs') := by
  intro inj inj' hi st st' e
  simp only [simpleMatch] at e ⊢
  split at e
  · simp at e
  · rename_i st1 h1
    rw [hm _ _ h1]
    simp only
    split at e
    · rename_i ha
      simp only [ha, if_true]
      split at e
      · simp at e
      · rename_i st2 h2; rw [dfs_le hc hi _ _ h2]; exact e
    · rename_i ha; simpa [ha] using e

theorem repLoop_le {m m' : K} (hm : KLe m m') : ∀ (n : Nat) (st : St) (r : Bool × St), repLoop m n st = some r →
    repLoop m' n st = some r := by
  intro n
  induction n with
  | zero => intro st r e; exact e
  | succ n ih =>
    intro st r e
    simp only [repLoop] at e ⊢
    split at e
    · simp at e
    · rename_i st1 h1
      rw [hm _ _ h1]
      simp only
      split at e
      · rename_i ha; simp only [ha, if_true]; exact ih _ _ e
      · rename_i ha; simpa [ha] using e

theorem repeated_le {m m' : K} {n : Nat} {cs cs' : List M} (hm : KLe m m') (hc : All2 MLe cs cs') :
    MLe (repeatedMatch m n cs) (repeatedMatch m' n cs') := by
  intro inj inj' hi st st' e
  simp only [repeatedMatch] at e ⊢
  split at e
  · simp at e
  · rename_i st1 h1; rw [repLoop_le hm _ _ _ h1]; exact e
  · rename_i st1 h1; rw [repLoop_le hm _ _ _ h1]; exact dfs_le hc .nil _ _ e

theorem growLoop_le {m m' : K} (hm : KLe m m') : ∀ (n k : Nat) (st : St) (r : Nat × St), growLoop m n k st = some r →
    growLoop m' n k st = some r := by
  intro n
  induction n with
  | zero => intro k st r e; exact e
  | succ n ih =>
    intro k st r e
    simp only [growLoop] at e ⊢
    split at e
    · simp at e
    · rename_i st1 h1
      rw [hm _ _ h1]
      simp only
      split at e
      · rename_i ha; simp only [ha, if_true]; exact ih _ _ _ e
      · rename_i ha; simpa [ha] using e

theorem scanBack_le {m m' : K} (hm : KLe m m') : ∀ (n : Nat) (it : Int), KLe (scanBack m n it) (scanBack m' n it) := by
  intro n
  induction n with
  | zero => intro it st st' e; exact e
  | succ n ih =>
    intro it st st' e
    simp only [scanBack] at e ⊢
    split at e
    · simp at e
    · rename_i st1 h1
      rw [hm _ _ h1]
      simp only
      split at e
      · rename_i ha; simpa [ha] using e
      · rename_i ha; simp only [ha]; exact ih _ _ _ e

theorem btLoop_le {bt bt' m m' : K} (hb : KLe bt bt') (hm : KLe m m') (start : Int) : ∀ (n : Nat) (st : St) (r : Bool × St),
    btLoop bt m start n st = some r → btLoop bt' m' start n st = some r := by
  intro n
  induction n with
  | zero => intro st r e; exact e
  | succ n ih =>
    intro st r e
    simp only [btLoop] at e ⊢
    split at e
    · simp at e
    · rename_i st1 h1
      rw [hb _ _ h1]
      simp only
      split at e
      · rename_i ha; simpa [ha] using e
      · rename_i ha
        simp only [ha]
        split at e
        · simp at e
        · rename_i st2 h2
          simp only [Bool.false_eq_true, if_false]
          rw [scanBack_le hm _ _ _ _ h2]
          exact ih _ _ e

theorem backtrack_le {cs cs' : List M} {inj inj' : List K} (hc : All2 MLe cs cs') (hi : All2 KLe inj inj') :
    KLe (greedyBacktrack cs inj) (greedyBacktrack cs' inj') := by
  intro st st' e
  simp only [greedyBacktrack, ← hc.isEmpty] at e ⊢
  split at e
  · rename_i he
    simp only [he, if_true]
    split at e
    · simp at e
    · rename_i st1 h1; rw [dfsInj_le hi _ _ h1]; exact e
  · rename_i he; simp only [he]; exact dfs_le hc .nil _ _ e

theorem optional_le {m m' : K} {w : Nat} {cs cs' : List M} (hm : KLe m m') (hc : All2 MLe cs cs') :
    MLe (optionalMatch m w cs) (optionalMatch m' w cs') := by
  intro inj inj' hi st st' e
  simp only [optionalMatch] at e ⊢
  split at e
  · simp at e
  · rename_i st1 h1
    rw [hm _ _ h1]
    simp only
    split at e
    · simp at e
    · rename_i st2 h2
      rw [backtrack_le hc hi _ _ h2]
      simp only
      split at e
      · rename_i ha; simp only [ha, if_true]; exact backtrack_le hc hi _ _ e
      · rename_i ha; simp only [ha]; exact e

theorem greedy_le {m m' : K} {lo hi : Nat} {cs cs' : List M} (hm : KLe m m') (hc : All2 MLe cs cs') :
    MLe (greedyMatch m lo hi cs) (greedyMatch m' lo hi cs') := by
  intro inj inj' hi' st st' e
  simp only [greedyMatch] at e ⊢
  split at e
  · simp at e
  · rename_i st1 h1; rw [repLoop_le hm _ _ _ h1]; exact e
  · rename_i st1 h1
    rw [repLoop_le hm _ _ _ h1]
    simp only
    split at e
    · simp at e
    · rename_i k st2 h2
      rw [growLoop_le hm _ _ _ _ h2]
      simp only
      split at e
      · simp at e
      · rename_i st3 h3; rw [btLoop_le (backtrack_le hc hi') hm _ _ _ _ h3]; exact e
      · rename_i st3 h3; rw [btLoop_le (backtrack_le hc hi') hm _ _ _ _ h3]; exact dfs_le hc .nil _ _ e

theorem lazy_le {a b : Ctx} (H : a.Le b) {m m' : K} {lo hi : Nat} {cs cs' : List M} (hm : KLe m m') (hc : All2 MLe cs cs') :
    MLe (lazyMatch a m lo hi cs) (lazyMatch b m' lo hi cs') := by
  intro inj inj' hi' st st' e
  simp only [lazyMatch] at e ⊢
  split at e
  · simp at e
  · rename_i st1 h1; rw [repLoop_le hm _ _ _ h1]; exact e
  · rename_i st1 h1
    rw [repLoop_le hm _ _ _ h1]
    simp only
    split at e
    · simp at e
    · rename_i st3 h3; rw [lazyLoop_le H hm hc hi' _ _ _ h3]; exact e
    · rename_i st3 h3; rw [lazyLoop_le H hm hc hi' _ _ _ h3]; exact dfs_le hc .nil _ _ e

theorem possLoop_le {m m' : K} {lo : Nat} (hm : KLe m m') : ∀ (n i : Nat) (last : Int) (st : St) (r : Bool × St),
    possLoop m lo n i last st = some r → possLoop m' lo n i last st = some r := by
  intro n
  induction n with
  | zero => intro i last st r e; exact e
  | succ n ih =>
    intro i last st r e
    simp only [possLoop] at e ⊢
    split at e
    · simp at e
    · rename_i st1 h1
      rw [hm _ _ h1]
      simp only
      split at e
      · rename_i ha; simp only [ha, if_true]; exact ih _ _ _ _ e
      · rename_i ha; simpa [ha] using e

theorem possessive_le {m m' : M} {lo hi : Nat} {cs cs' : List M} (hm : MLe m m') (hc : All2 MLe cs cs') :
    MLe (possessiveMatch m lo hi cs) (possessiveMatch m' lo hi cs') := by
  intro inj inj' hi' st st' e
  simp only [possessiveMatch] at e ⊢
  split at e
  · simp at e
  · rename_i st1 h1; rw [possLoop_le (hm inj inj' hi') _ _ _ _ _ h1]; exact e
  · rename_i st1 h1; rw [possLoop_le (hm inj inj' hi') _ _ _ _ _ h1]; exact dfs_le hc .nil _ _ e

theorem group_le {m m' : M} {idx : Nat} {cs cs' : List M} (hm : MLe m m') (hc : All2 MLe cs cs') :
    MLe (groupMatch m idx cs) (groupMatch m' idx cs') := by
  intro inj inj' hi st st' e
  have hown : All2 KLe (cs.map (fun c => c [])) (cs'.map (fun c => c [])) := hc.map (fun _ _ h => h [] [] .nil)
  simp only [groupMatch] at e ⊢
  split at e
  · simp at e
  · rename_i st1 h1
    rw [hm _ _ hown _ _ h1]
    simp only
    split at e
    · rename_i ha
      rw [if_pos ha]
      split at e
      · rename_i hl
        rw [if_pos hl]
        exact dfs_le hc (hown.append hi) _ _ e
      · simp at e
    · rename_i ha; simpa [ha] using e

mutual
/-- A defined match has the same result in every larger memory. -/
theorem run_le {a b : Ctx} (H : a.Le b) : ∀ t : Node, MLe (run a t) (run b t)
  | .exact s d => by intro i i' _; simp only [run]; exact guarded_le H (exact_le H)
  | .range .. => by intro i i' _; simp only [run]; exact guarded_le H (oneChar_le H)
  | .word => by intro i i' _; simp only [run]; exact guarded_le H (oneChar_le H)
  | .any => by intro i i' _; simp only [run]; exact guarded_le H (oneChar_le H)
  | .space => by intro i i' _; simp only [run]; exact guarded_le H (space_le H)
  | .bos => by intro i i' _; simp only [run]; exact bos_le H
  | .eol => by intro i i' _; simp only [run]; exact eol_le H
  | .negated m => by intro i i' _; simp only [run]; exact negated_le H (run_le H m [] [] .nil)
  | .simple m cs => by simp only [run]; exact simple_le (run_le H m [] [] .nil) (runs_le H cs)
  | .alt cs => by intro i i' hi; simp only [run]; exact dfs_le (runs_le H cs) hi
  | .greedy m lo hi cs => by
    simp only [run]
    split
    · exact optional_le (run_le H m [] [] .nil) (runs_le H cs)
    · exact greedy_le (run_le H m [] [] .nil) (runs_le H cs)
  | .lazy m lo hi cs => by simp only [run]; exact lazy_le H (run_le H m [] [] .nil) (runs_le H cs)
  | .possessive m lo hi cs => by simp only [run]; exact possessive_le (run_le H m) (runs_le H cs)
  | .repeated m n cs => by simp only [run]; exact repeated_le (run_le H m [] [] .nil) (runs_le H cs)
  | .group m idx cs => by simp only [run]; exact group_le (run_le H m) (runs_le H cs)
theorem runs_le {a b : Ctx} (H : a.Le b) : ∀ cs : List Node, All2 MLe (runs a cs) (runs b cs)
  | [] => .nil
  | c :: cs => by simp only [runs]; exact .cons (run_le H c) (runs_le H cs)
end

end ERegex

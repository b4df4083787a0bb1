import Verif.Proofs.CaptureRun
/-!
# Captures: repetitions of a group
-/
set_option autoImplicit false
namespace ERegex
open ERegex.Spec ERegex.Props

/-! ## lists -/

theorem chain_full (body : Nat → List Nat) (x : Nat) : ∀ (m : Nat) (p : Nat × Nat), (chain body m p).1 = m ↔ m ≤ (chain body (m + x) p).1
  | 0, p => by simp [chain]
  | m + 1, p => by
    rw [show m + 1 + x = (m + x) + 1 by omega]
    cases hh : (body p.2).head? with
    | none => simp [chain, hh]
    | some e => simp only [chain, hh, Nat.add_right_cancel_iff, Nat.add_le_add_iff_right]; exact chain_full body x m (p.2, e)

theorem chain_inside {len : Nat} {body : Nat → List Nat} (hb : Eats len body) : ∀ (m : Nat) (p : Nat × Nat), p.2 ≤ len →
    p.2 ≤ (chain body m p).2.2 ∧ (chain body m p).2.2 ≤ len
  | 0, p, h => by simp [chain, h]
  | m + 1, p, h => by
    cases hh : (body p.2).head? with
    | none => simp [chain, hh, h]
    | some e =>
      have he := List.mem_of_mem_head? hh
      have h1 := hb.more _ _ he
      have h2 := chain_inside hb m (p.2, e) (hb.inside _ _ h he)
      simp only [chain, hh]
      simp only at h2
      exact ⟨by omega, h2.2⟩

theorem caps_flat (q : List Int) : ∀ (b : Sq), flat b = true → ∀ i, caps q b i = (b.picks q i).map (fun e => (e, []))
  | .nil d, _, i => rfl
  | .cons a k b, h, i => by
    simp only [flat, Bool.and_eq_true] at h
    rw [caps_atom (by simpa [Plain] using h.1.1), Sq.picks, List.map_flatMap]
    congr 1
    funext n
    exact caps_flat q b h.2 (i + n)

theorem flat_plain : ∀ (b : Sq), flat b = true → plainGroups b = true ∧ b.voids = b.nullable
  | .nil d, _ => by simp [plainGroups, Sq.voids, Sq.nullable]
  | .cons a k b, h => by
    simp only [flat, Bool.and_eq_true] at h
    have hp : Plain a := by simpa [Plain] using h.1.1
    obtain ⟨h1, h2⟩ := flat_plain b h.2
    cases a <;> first | (simp [Plain, Atom.steady, Atom.skips] at hp; done) | simp [plainGroups, Sq.voids, Sq.nullable, h1, h2]

/-- What a quantified group guarantees. -/
structure RepFacts (c : Bool) (as : Alts) (k : Quant) (s : Sq) : Prop where
  bare : as.bare = true
  eats : ∀ b ∈ as.list, b.eats = true
  regular : ∀ b ∈ as.list, b.regular = true
  sane : k.sane = true
  taken : c = true → k.lo ≠ 0
  must : k.lo ≤ 1 ∨ again as = true
  works : k.mode ≠ .possessive → s.voids = true ∨ (as.list.all (settled s) = true ∧ Spec.apart s as.list = true ∧ (k.hi = some 1 ∨ again as = true) ∧
    (k.fixed = true ∨ ∀ b ∈ as.list, meets b.first s.begins = false))

theorem rep_facts {c : Bool} {as : Alts} {k : Quant} {s : Sq} (h : repOk c as k s = true) : RepFacts c as k s := by
  simp only [repOk, Bool.and_eq_true] at h
  obtain ⟨⟨⟨⟨⟨⟨h1, h2⟩, h3⟩, h4⟩, h5⟩, h6⟩, h7⟩ := h
  rw [List.all_eq_true] at h2
  refine ⟨h1, fun b hb => ?_, fun b hb => ?_, h4, fun hc => ?_, ?_, fun hm => ?_⟩
  · have := h2 b hb; simp only [Bool.and_eq_true] at this; exact this.2
  · have := h2 b hb; simp only [Bool.and_eq_true] at this; exact this.1.1.1
  · subst hc; simpa using h5
  · simpa using h6
  · cases hmo : k.mode with
    | possessive => exact absurd hmo hm
    | greedy =>
      rw [hmo] at h7
      simp only [Bool.and_eq_true, Bool.or_eq_true, List.all_eq_true, Bool.not_eq_true', beq_iff_eq] at h7 ⊢
      rcases h7.2 with h | ⟨⟨⟨h8, h9⟩, h10⟩, h11⟩
      · exact Or.inl h
      · exact Or.inr ⟨h8, h9, h10, h11⟩
    | lazy =>
      rw [hmo] at h7
      simp only [Bool.and_eq_true, Bool.or_eq_true, List.all_eq_true, beq_iff_eq] at h7 ⊢
      rcases h7.2 with h | ⟨⟨h8, h9⟩, h10⟩
      · exact Or.inl h
      · exact Or.inr ⟨h8, h9, h10, Or.inl h7.1⟩

theorem rep_body_eats {c : Bool} {as : Alts} {k : Quant} {s : Sq} (hF : RepFacts c as k s) (q : List Int) : Eats q.length (as.picks q) :=
  ⟨fun i e he => alts_eats q as hF.eats i e he, fun _ _ hi he => (alts_le hi he).2⟩

theorem again_single {q : List Int} (hq : ∀ c ∈ q, c ∈ allChars) {c : Bool} {as : Alts} {k : Quant} {s : Sq} (hF : RepFacts c as k s) (h : again as = true) :
    Single q.length (as.picks q) (fun e => as.picks q e ≠ []) := by
  intro i e hi he hne
  simp only [again, Bool.and_eq_true, List.all_eq_true] at h
  obtain ⟨x, hx⟩ := List.exists_mem_of_ne_nil _ hne
  obtain ⟨b, hb, hx⟩ := alts_mem q as e x hx
  have hfl := flat_regular b (hF.regular b hb)
  obtain ⟨h1, h2⟩ := flat_plain b hfl
  refine apart_head hq h1 (by rw [h2]; exact eats_null b (hF.eats b hb)) as hF.bare (fun b' hb' => h.2 b' hb' b hb) (apart_weaken h.1) hF.eats i e hi he ?_
  rw [caps_flat q b hfl]
  intro hc
  rw [List.map_eq_nil_iff] at hc
  rw [hc] at hx; simp at hx

theorem sane_hi {k : Quant} (h : k.sane = true) : ∀ x, k.hi = some x → k.lo ≤ x ∧ 0 < x := by
  intro x hx
  simp only [Quant.sane, Bool.and_eq_true, hx, decide_eq_true_eq] at h
  exact h.2

theorem fixed_extra {k : Quant} (h : k.fixed = true) (len : Nat) : k.extra len = 0 := by
  cases k <;> first | (simp [Quant.fixed] at h; done) | simp [Quant.extra, Quant.hi, Quant.lo]

/-- What follows works behind the preferred repetitions if it works behind any. -/
theorem rep_head {q : List Int} (hq : ∀ c ∈ q, c ∈ allChars) {c : Bool} {as : Alts} {k : Quant} {s : Sq} (hF : RepFacts c as k s) (hp : plainGroups s = true)
    {i : Nat} (hi : i ≤ q.length) {p : Nat × Nat} (h : (spans q.length k (as.picks q) i).head? = some p) :
    (caps q (.cons (.group c as) k s) i).head? = ((caps q s p.2).map (fun r => (r.1, if c then p :: r.2 else r.2))).head? := by
  simp only [caps]
  cases hv : caps q s p.2 with
  | cons x l => rw [flatMap_head (F := fun p => (caps q s p.2).map (fun r => (r.1, if c then p :: r.2 else r.2))) h (by simp [hv]), hv]
  | nil =>
    have hvo : s.voids = false := by
      cases hc : s.voids with
      | false => rfl
      | true => exact absurd hv (voids_caps q s hp hc _)
    rw [List.map_nil, List.head?_nil, List.head?_eq_none_iff, List.flatMap_eq_nil_iff]
    intro r hr
    rw [List.map_eq_nil_iff]
    cases hcr : caps q s r.2 with
    | nil => rfl
    | cons x l =>
      exfalso
      have hR : caps q s r.2 ≠ [] := by rw [hcr]; simp
      have heats := rep_body_eats hF q
      have key : (spans q.length k (as.picks q) i).head? = some r := by
        by_cases hm : k.mode = .possessive
        · exact spans_poss hm _ _ hr
        · rcases hF.works hm with h1 | ⟨h1, h2, h3, h4⟩
          · rw [hvo] at h1; cases h1
          · refine spans_single heats (R := fun e => caps q s e ≠ []) ?_ k hm hi ?_ ?_ hr hR
            · intro i e hi he hw
              exact apart_head hq hp hvo as hF.bare (List.all_eq_true.1 h1) h2 hF.eats i e hi he hw
            · rcases h3 with h3 | h3
              · left
                have := sane_hi hF.sane 1 h3
                simp only [Quant.extra, h3]; omega
              · exact Or.inr (again_single hq hF h3)
            · rcases h4 with h4 | h4
              · exact Or.inl (fixed_extra h4 _)
              · right
                intro j hj hw
                cases hb : as.picks q j with
                | nil => rfl
                | cons e l =>
                  exfalso
                  have he : e ∈ as.picks q j := by rw [hb]; simp
                  have hlt := heats.more j e he
                  have hle := heats.inside j e hj he
                  obtain ⟨b, hb', he⟩ := alts_mem q as j e he
                  rcases first_at q b j e he with ⟨_, hn⟩ | hx | ⟨d, hd, hf⟩
                  · rw [eats_null b (hF.eats b hb')] at hn; cases hn
                  · omega
                  · rcases begins_caps q s hp j hw with hx | hx | ⟨d', hd', hf'⟩
                    · rw [hvo] at hx; cases hx
                    · omega
                    · rw [hd] at hd'; cases hd'
                      have := (meets_iff b.first s.begins).2 ⟨d, hq d (List.mem_of_getElem? hd), hf, hf'⟩
                      rw [h4 b hb'] at this; cases this
      rw [h] at key
      cases key
      exact hR hv

/-- The preferred repetitions. -/
theorem rep_spans {q : List Int} (hq : ∀ c ∈ q, c ∈ allChars) (hlen : q.length < umax) {c : Bool} {as : Alts} {k : Quant} {s : Sq} (hF : RepFacts c as k s)
    {i : Nat} (hi : i ≤ q.length) :
    (spans q.length k (as.picks q) i).head? = if k.lo ≤ (chain (as.picks q) k.hiN (i, i)).1 then some (chain (as.picks q) k.hiN (i, i)).2 else none := by
  have heats := rep_body_eats hF q
  rw [spans_head heats k hi (hF.must.imp id (again_single hq hF))]
  have e : chain (as.picks q) (k.lo + k.extra q.length) (i, i) = chain (as.picks q) k.hiN (i, i) := by
    cases hh : k.hi with
    | none =>
      refine chain_stop heats _ _ _ hi ?_ ?_
      · simp only [Quant.extra, hh]; omega
      · simp only [Quant.hiN, hh, Option.getD_none]; omega
    | some x =>
      have := sane_hi hF.sane x hh
      simp only [Quant.extra, Quant.hiN, hh, Option.getD_some]
      rw [show k.lo + (x - k.lo) = x by omega]
  rw [← e]
  simp only [chain_full (as.picks q) (k.extra q.length) k.lo (i, i)]

/-! ## loops -/

/-- One repetition of the body: it takes the preferred end and stores it in group `n` (if `c`). -/
def StepR (cx : Ctx) (P : Par) (body : Nat → List Nat) (c : Bool) (n : Nat) (m : K) : Prop := ∀ (st : St) (i : Nat), Good cx P st → st.pos = i →
  ∃ st1, m st = some st1 ∧ Good cx P st1 ∧
    match (body i).head? with
    | none => st1.accepted = false ∧ st1.groups[n]? = st.groups[n]?
    | some e => st1.accepted = true ∧ st1.pos = (e : Int) ∧ (c = true → st1.groups[n]? = some (some ((i : Int), (e : Int))))

section
variable {cx : Ctx} {P : Par} {body : Nat → List Nat} {c : Bool} {n : Nat} {m : K}

/-- State behind the repetitions that end with `p`. -/
structure Behind (cx : Ctx) (P : Par) (c : Bool) (n : Nat) (some' : Bool) (p : Nat × Nat) (st : St) : Prop where
  good : Good cx P st
  pos : st.pos = (p.2 : Int)
  kept : c = true → some' = true → st.groups[n]? = some (some ((p.1 : Int), (p.2 : Int)))

theorem poss_reps (hs : StepR cx P body c n m) (lo : Nat) : ∀ (f j : Nat) (st : St) (p : Nat × Nat) (b : Bool), Behind cx P c n b p st →
    ∃ ok st', possLoop m lo f j st.pos st = some (ok, st') ∧
      ((ok = true ∧ (lo ≤ j + (chain body f p).1 ∨ (chain body f p).1 = f) ∧ Behind cx P c n (b || (chain body f p).1 != 0) (chain body f p).2 st' ∧ (st.accepted = true ∨ f ≠ 0 → st'.accepted = true)) ∨
       (ok = false ∧ j + (chain body f p).1 < lo ∧ (chain body f p).1 ≠ f ∧ st'.accepted = false))
  | 0, j, st, p, b, h => ⟨true, st, rfl, Or.inl ⟨rfl, Or.inr rfl, by simpa [chain] using h, by simp⟩⟩
  | f + 1, j, st, p, b, h => by
    obtain ⟨st1, e1, hg1, h1⟩ := hs st p.2 h.good h.pos
    cases hh : (body p.2).head? with
    | none =>
      rw [hh] at h1
      by_cases hlo : j < lo
      · exact ⟨false, st1, by simp [possLoop, e1, h1.1, hlo], Or.inr ⟨rfl, by simpa [chain, hh] using hlo, by simp [chain, hh], h1.1⟩⟩
      · refine ⟨true, { st1 with accepted := true, pos := st.pos }, by simp [possLoop, e1, h1.1, hlo], Or.inl ⟨rfl, Or.inl (by omega), ?_, fun _ => rfl⟩⟩
        have hch : chain body (f + 1) p = (0, p) := by simp [chain, hh]
        rw [hch]
        refine ⟨hg1.both true (h.good.pos.1) h.good.pos.2, h.pos, fun hc hb => ?_⟩
        simp only [bne_self_eq_false, Bool.or_false] at hb
        simp only [h1.2]
        exact h.kept hc hb
    | some e =>
      rw [hh] at h1
      obtain ⟨ok, st', e2, h2⟩ := poss_reps hs lo f (j + 1) st1 (p.2, e) true ⟨hg1, h1.2.1, fun hc _ => h1.2.2 hc⟩
      refine ⟨ok, st', by simp [possLoop, e1, h1.1, e2], ?_⟩
      simp only [chain, hh]
      rcases h2 with ⟨h3, h4, h5, h6⟩ | ⟨h3, h4, h5, h6⟩
      · refine Or.inl ⟨h3, h4.imp (by omega) (by omega), ?_, fun _ => h6 (Or.inl h1.1)⟩
        refine ⟨h5.good, h5.pos, fun hc _ => h5.kept hc rfl⟩
      · exact Or.inr ⟨h3, by omega, by omega, h6⟩

theorem rep_reps (hs : StepR cx P body c n m) : ∀ (f : Nat) (st : St) (p : Nat × Nat) (b : Bool), Behind cx P c n b p st →
    ∃ ok st', repLoop m f st = some (ok, st') ∧
      ((ok = true ∧ (chain body f p).1 = f ∧ Behind cx P c n (b || f != 0) (chain body f p).2 st' ∧ (st.accepted = true ∨ f ≠ 0 → st'.accepted = true)) ∨
       (ok = false ∧ (chain body f p).1 ≠ f ∧ st'.accepted = false))
  | 0, st, p, b, h => ⟨true, st, rfl, Or.inl ⟨rfl, rfl, by simpa [chain] using h, by simp⟩⟩
  | f + 1, st, p, b, h => by
    obtain ⟨st1, e1, hg1, h1⟩ := hs st p.2 h.good h.pos
    cases hh : (body p.2).head? with
    | none =>
      rw [hh] at h1
      exact ⟨false, st1, by simp [repLoop, e1, h1.1], Or.inr ⟨rfl, by simp [chain, hh], h1.1⟩⟩
    | some e =>
      rw [hh] at h1
      obtain ⟨ok, st', e2, h2⟩ := rep_reps hs f st1 (p.2, e) true ⟨hg1, h1.2.1, fun hc _ => h1.2.2 hc⟩
      refine ⟨ok, st', by simp [repLoop, e1, h1.1, e2], ?_⟩
      simp only [chain, hh]
      rcases h2 with ⟨h3, h4, h5, h6⟩ | ⟨h3, h4, h5⟩
      · refine Or.inl ⟨h3, by omega, ?_, fun _ => h6 (Or.inl h1.1)⟩
        exact ⟨h5.good, h5.pos, fun hc _ => h5.kept hc rfl⟩
      · exact Or.inr ⟨h3, by omega, h5⟩

end
end ERegex

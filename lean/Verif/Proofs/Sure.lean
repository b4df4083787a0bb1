import Verif.Spec.Sure
import Verif.Proofs.Tame
import Verif.Proofs.Sound
import Verif.Proofs.Prefer
import Verif.Proofs.Anchor
/-!
# From conditions on the pattern as written to soundness conditions on the compiled tree
-/
set_option autoImplicit false
namespace ERegex
open Spec

/-- The loop over `m` becomes possessive in front of `cs`. -/
def parted (m : Node) (cs : List Node) : Bool := (intersectSets (admSet m) (extractAdm (admSets cs))).isEmpty

mutual
/-- Trees that restore the position when they fail, before and after the heuristics. -/
def rigid : Node → Bool
  | .exact .. | .range .. | .word | .any | .bos | .eol => true
  | .space | .negated _ => false
  | .simple m _ => rigid m
  | .alt cs => rigids cs
  | .greedy m lo hi cs => !(lo == 0 && hi == 1) && totals false cs && rigids cs && (decide (lo = 0) || (decide (lo = 1) && rigid m))
  | .lazy m lo _ cs | .possessive m lo _ cs => totals false cs && rigids cs && (decide (lo = 0) || (decide (lo = 1) && rigid m))
  | .repeated m n cs => (decide (n = 0) && rigids cs) || (decide (n = 1) && totals false cs && rigid m)
  | .group m _ cs => totals true cs && rigid m
def rigids : List Node → Bool
  | [] => true
  | c :: cs => rigid c && rigids cs
end

mutual
theorem rigid_clean : ∀ (t : Node), rigid t = true → clean t = true
  | .exact .., _ | .range .., _ | .word, _ | .any, _ | .bos, _ | .eol, _ => rfl
  | .simple m _, h => rigid_clean m h
  | .alt cs, h => rigids_cleans cs h
  | .greedy m lo hi cs, h => by
    simp only [rigid, Bool.and_eq_true, Bool.or_eq_true] at h
    simp only [clean, Bool.and_eq_true, Bool.or_eq_true]
    refine ⟨?_, Or.inl ⟨h.1.1.2, h.2.imp id (fun x => ⟨x.1, rigid_clean m x.2⟩)⟩⟩
    have := h.1.1.1
    simp only [optPath]
    cases hx : (lo == 0 && hi == 1) <;> simp_all
  | .lazy m lo _ cs, h | .possessive m lo _ cs, h => by
    simp only [rigid, clean, Bool.and_eq_true, Bool.or_eq_true] at h ⊢
    exact ⟨⟨h.1.1, rigids_cleans cs h.1.2⟩, h.2.imp id (fun x => ⟨x.1, rigid_clean m x.2⟩)⟩
  | .repeated m n cs, h => by
    simp only [rigid, clean, Bool.and_eq_true, Bool.or_eq_true] at h ⊢
    exact h.imp (fun x => ⟨x.1, rigids_cleans cs x.2⟩) (fun x => ⟨x.1, rigid_clean m x.2⟩)
  | .group m _ cs, h => by
    simp only [rigid, clean, Bool.and_eq_true] at h ⊢
    exact ⟨h.1, rigid_clean m h.2⟩
theorem rigids_cleans : ∀ (cs : List Node), rigids cs = true → cleans cs = true
  | [], _ => rfl
  | c :: cs, h => by
    simp only [rigids, cleans, Bool.and_eq_true] at h ⊢
    exact ⟨rigid_clean c h.1, rigids_cleans cs h.2⟩
end


mutual
/-- The heuristics keep totality. -/
theorem total_opt : ∀ (t : Node) (inj : List (List Int)) {ib : Bool}, total ib t = true → total ib (opt t inj) = true
  | .exact .., _, _, h | .range .., _, _, h | .word, _, _, h | .any, _, _, h | .bos, _, _, h | .eol, _, _, h | .space, _, _, h
  | .negated _, _, _, h => by simp [total] at h
  | .simple m [], inj, ib, h => by
    simp only [total, totals, List.isEmpty_nil, Bool.and_true] at h
    rw [opt]
    exact total_opt m inj h
  | .simple m (c :: cs), inj, _, h => by
    simp only [opt, total, totals, Bool.and_eq_true, List.isEmpty_cons, Bool.and_false] at h ⊢
    exact ⟨total_opt m inj h.1, total_opt c [] h.2⟩
  | .alt [], _, _, h => by simp [total] at h
  | .alt [c], inj, _, h => by
    simp only [total, totals, Bool.and_eq_true] at h
    rw [opt]; exact total_opt c inj h.2
  | .alt (c :: e :: cs), inj, _, h => by
    simp only [total, totals, Bool.and_eq_true] at h
    simp only [opt, total, totals, Bool.and_eq_true]
    exact ⟨rfl, total_opt c [] h.2⟩
  | .greedy m lo hi cs, inj, _, h => by
    simp only [total, Bool.and_eq_true] at h
    simp only [opt]
    split <;> simp only [total, Bool.and_eq_true]
    · exact ⟨h.1.1, totals_opts cs h.2⟩
    · exact ⟨h.1, totals_opts cs h.2⟩
  | .lazy m lo hi cs, inj, _, h => by
    simp only [total, Bool.and_eq_true] at h
    simp only [opt]
    split <;> simp only [total, Bool.and_eq_true, opts_isEmpty]
    · exact ⟨h.1.1, totals_opts cs h.2⟩
    · exact ⟨h.1, totals_opts cs h.2⟩
  | .possessive m lo hi cs, inj, _, h | .repeated m lo cs, inj, _, h => by
    simp only [total, opt, Bool.and_eq_true] at h ⊢
    exact ⟨h.1, totals_opts cs h.2⟩
  | .group m idx cs, inj, _, h => by
    simp only [total, opt, Bool.and_eq_true, opts_isEmpty] at h ⊢
    exact ⟨total_opt m _ h.1, totals_opts cs h.2⟩
theorem totals_opts : ∀ (cs : List Node) {ib : Bool}, totals ib cs = true → totals ib (opts cs) = true
  | [], _, _ => rfl
  | c :: cs, _, h => by
    simp only [totals, opts] at h ⊢
    exact total_opt c [] h
end

mutual
theorem rigid_opt : ∀ (t : Node) (inj : List (List Int)), rigid t = true → rigid (opt t inj) = true
  | .exact .., _, _ | .range .., _, _ | .word, _, _ | .any, _, _ | .bos, _, _ | .eol, _, _ => rfl
  | .simple m [], inj, h => by rw [opt]; exact rigid_opt m inj h
  | .simple m (c :: cs), inj, h => by simp only [opt, rigid] at h ⊢; exact rigid_opt m inj h
  | .alt [], _, _ => rfl
  | .alt [c], inj, h => by
    simp only [rigid, rigids, Bool.and_eq_true] at h
    rw [opt]; exact rigid_opt c inj h.1
  | .alt (c :: e :: cs), inj, h => by
    simp only [rigid, rigids, Bool.and_eq_true] at h
    simp only [opt, rigid, rigids, Bool.and_eq_true]
    exact ⟨rigid_opt c [] h.1, rigid_opt e [] h.2.1, rigids_opts cs h.2.2⟩
  | .greedy m lo hi cs, inj, h => by
    simp only [rigid, Bool.and_eq_true, Bool.or_eq_true] at h
    simp only [opt]
    split <;> simp only [rigid, Bool.and_eq_true, Bool.or_eq_true]
    · exact ⟨⟨totals_opts cs h.1.1.2, rigids_opts cs h.1.2⟩, h.2.imp id (fun x => ⟨x.1, rigid_opt m [] x.2⟩)⟩
    · exact ⟨⟨⟨h.1.1.1, totals_opts cs h.1.1.2⟩, rigids_opts cs h.1.2⟩, h.2.imp id (fun x => ⟨x.1, rigid_opt m [] x.2⟩)⟩
  | .lazy m lo hi cs, inj, h => by
    simp only [rigid, Bool.and_eq_true, Bool.or_eq_true] at h
    simp only [opt]
    split <;> simp only [rigid, Bool.and_eq_true, Bool.or_eq_true] <;>
      exact ⟨⟨totals_opts cs h.1.1, rigids_opts cs h.1.2⟩, h.2.imp id (fun x => ⟨x.1, rigid_opt m [] x.2⟩)⟩
  | .possessive m lo hi cs, inj, h => by
    simp only [rigid, opt, Bool.and_eq_true, Bool.or_eq_true] at h ⊢
    exact ⟨⟨totals_opts cs h.1.1, rigids_opts cs h.1.2⟩, h.2.imp id (fun x => ⟨x.1, rigid_opt m [] x.2⟩)⟩
  | .repeated m lo cs, inj, h => by
    simp only [rigid, opt, Bool.and_eq_true, Bool.or_eq_true] at h ⊢
    exact h.imp (fun x => ⟨x.1, rigids_opts cs x.2⟩) (fun x => ⟨⟨x.1.1, totals_opts cs x.1.2⟩, rigid_opt m [] x.2⟩)
  | .group m idx cs, inj, h => by
    simp only [rigid, opt, Bool.and_eq_true] at h ⊢
    exact ⟨totals_opts cs h.1, rigid_opt m _ h.2⟩
theorem rigids_opts : ∀ (cs : List Node), rigids cs = true → rigids (opts cs) = true
  | [], _ => rfl
  | c :: cs, h => by
    simp only [rigids, opts, Bool.and_eq_true] at h ⊢
    exact ⟨rigid_opt c [] h.1, rigids_opts cs h.2⟩
end

mutual
/-- The condition on trees, before the heuristics. -/
def sure (ib z : Bool) : Node → Bool
  | .exact .. | .range .. | .word | .any | .bos | .eol | .space | .negated _ => true
  | .simple m cs => sure ib z m && sures ib (z && isBos m) cs && rigids cs.dropLast
  | .alt cs => sures ib z cs && rigids cs.dropLast
  | .greedy m lo hi cs => sure ib false m && sures false false cs && rigids cs.dropLast && decide (lo ≤ hi) &&
    ((!ib && parted m cs) || (single m && rigids cs && (!(lo == 0 && hi == 1) || z)) ||
      (!cs.isEmpty && totals false cs && rigid m && !(lo == 0 && hi == 1)) || decide (lo = hi))
  | .lazy m lo hi cs => sure ib false m && sures false false cs && rigids cs && rigids cs.dropLast && decide (lo ≤ hi)
  | .possessive m lo hi cs => sure ib false m && sures false false cs && rigids cs.dropLast && decide (lo ≤ hi)
  | .repeated m _ cs => sure false false m && sures false false cs && rigids cs.dropLast
  | .group m _ cs => sure (ib || !cs.isEmpty) false m && sures true false cs && rigids cs.dropLast
def sures (ib z : Bool) : List Node → Bool
  | [] => true
  | c :: cs => sure ib z c && sures ib z cs
end

mutual
/-- No loop is left that the heuristics would make possessive. -/
def worked (ib : Bool) : Node → Bool
  | .exact .. | .range .. | .word | .any | .bos | .eol | .space | .negated _ => true
  | .simple m cs => worked ib m && workeds ib cs
  | .alt cs => workeds ib cs
  | .greedy m _ _ cs => worked ib m && workeds false cs && (ib || !parted m cs)
  | .lazy m _ _ cs | .possessive m _ _ cs => worked ib m && workeds false cs
  | .repeated m _ cs => worked false m && workeds false cs
  | .group m _ cs => worked (ib || !cs.isEmpty) m && workeds true cs
def workeds (ib : Bool) : List Node → Bool
  | [] => true
  | c :: cs => worked ib c && workeds ib cs
end


theorem parted_opt (m : Node) (cs : List Node) : parted (opt m []) (opts cs) = parted m cs := by
  simp [parted, admSet_opt, admSets_opts]

mutual
theorem worked_opt : ∀ (t : Node) (inj : List (List Int)) (ib : Bool), (ib = false → inj = []) → worked ib (opt t inj) = true
  | .exact .., _, _, _ | .range .., _, _, _ | .word, _, _, _ | .any, _, _, _ | .bos, _, _, _ | .eol, _, _, _ | .space, _, _, _ | .negated _, _, _, _ => rfl
  | .simple m [], inj, ib, h => by rw [opt]; exact worked_opt m inj ib h
  | .simple m (c :: cs), inj, ib, h => by
    simp only [opt, worked, workeds, Bool.and_eq_true]
    exact ⟨worked_opt m inj ib h, worked_opt c [] ib (fun _ => rfl), workeds_opts cs ib⟩
  | .alt [], _, _, _ => rfl
  | .alt [c], inj, ib, h => by rw [opt]; exact worked_opt c inj ib h
  | .alt (c :: e :: cs), inj, ib, h => by
    simp only [opt, worked, workeds, Bool.and_eq_true]
    exact ⟨worked_opt c [] ib (fun _ => rfl), worked_opt e [] ib (fun _ => rfl), workeds_opts cs ib⟩
  | .greedy m lo hi cs, inj, ib, h => by
    simp only [opt]
    split <;> simp only [worked, Bool.and_eq_true]
    · exact ⟨worked_opt m [] ib (fun _ => rfl), workeds_opts cs _⟩
    · rename_i hp
      refine ⟨⟨worked_opt m [] ib (fun _ => rfl), workeds_opts cs _⟩, ?_⟩
      cases ib with
      | true => rfl
      | false =>
        rw [h rfl, List.append_nil] at hp
        rw [parted_opt, parted]
        simpa using hp
  | .lazy m lo hi cs, inj, ib, h => by
    simp only [opt]
    split <;> simp only [worked, Bool.and_eq_true] <;> exact ⟨worked_opt m [] ib (fun _ => rfl), workeds_opts cs _⟩
  | .possessive m lo hi cs, inj, ib, h | .repeated m lo cs, inj, ib, h => by
    simp only [opt, worked, Bool.and_eq_true]
    exact ⟨worked_opt m [] _ (fun _ => rfl), workeds_opts cs _⟩
  | .group m idx cs, inj, ib, h => by
    simp only [opt, worked, Bool.and_eq_true, opts_isEmpty]
    refine ⟨worked_opt m _ _ ?_, workeds_opts cs _⟩
    intro hf
    simp only [Bool.or_eq_false_iff, Bool.not_eq_false'] at hf
    rw [h hf.1, List.isEmpty_iff.1 hf.2]; rfl
theorem workeds_opts : ∀ (cs : List Node) (ib : Bool), workeds ib (opts cs) = true
  | [], _ => rfl
  | c :: cs, ib => by
    simp only [opts, workeds, Bool.and_eq_true]
    exact ⟨worked_opt c [] ib (fun _ => rfl), workeds_opts cs ib⟩
end

mutual
theorem snd_mono : ∀ (t : Node) {ib ib' z z' : Bool}, (ib' = true → ib = true) → (z = true → z' = true) → snd ib z t = true → snd ib' z' t = true
  | .exact .., _, _, _, _, _, _, _ | .range .., _, _, _, _, _, _, _ | .word, _, _, _, _, _, _, _ | .any, _, _, _, _, _, _, _ | .bos, _, _, _, _, _, _, _
  | .eol, _, _, _, _, _, _, _ | .space, _, _, _, _, _, _, _ | .negated _, _, _, _, _, _, _, _ => rfl
  | .simple m cs, ib, ib', z, z', h1, h2, h => by
    simp only [snd, Bool.and_eq_true] at h ⊢
    exact ⟨⟨snd_mono m id h2 h.1.1, snds_mono cs h1 (by cases z <;> cases z' <;> simp_all) h.1.2⟩, h.2⟩
  | .alt cs, ib, ib', z, z', h1, h2, h => by
    simp only [snd, Bool.and_eq_true] at h ⊢
    exact ⟨snds_mono cs h1 h2 h.1, h.2⟩
  | .greedy m lo hi cs, ib, ib', z, z', h1, h2, h => by
    simp only [snd, Bool.and_eq_true] at h ⊢
    refine ⟨h.1, ?_⟩
    have := h.2
    unfold greedyOk at this ⊢
    cases ib <;> cases ib' <;> cases z <;> cases z' <;> simp_all <;> grind
  | .lazy m lo hi cs, ib, ib', z, z', h1, h2, h => h
  | .possessive m lo hi cs, ib, ib', z, z', h1, h2, h => by
    simp only [snd, Bool.and_eq_true] at h ⊢
    exact ⟨⟨⟨snd_mono m h1 id h.1.1.1, h.1.1.2⟩, h.1.2⟩, h.2⟩
  | .repeated m _ cs, _, _, _, _, _, _, h | .group m _ cs, _, _, _, _, _, _, h => h
theorem snds_mono : ∀ (cs : List Node) {ib ib' z z' : Bool}, (ib' = true → ib = true) → (z = true → z' = true) → snds ib z cs = true → snds ib' z' cs = true
  | [], _, _, _, _, _, _, _ => rfl
  | c :: cs, ib, ib', z, z', h1, h2, h => by
    simp only [snds, Bool.and_eq_true] at h ⊢
    exact ⟨snd_mono c h1 h2 h.1, snds_mono cs h1 h2 h.2⟩
end

mutual
/-- Behind the heuristics the condition gives soundness. -/
theorem sure_snd : ∀ (t : Node) {ib z : Bool}, sure ib z t = true → worked ib t = true → snd ib z t = true
  | .exact .., _, _, _, _ | .range .., _, _, _, _ | .word, _, _, _, _ | .any, _, _, _, _ | .bos, _, _, _, _
  | .eol, _, _, _, _ | .space, _, _, _, _ | .negated _, _, _, _, _ => rfl
  | .simple m cs, ib, z, h, hw => by
    simp only [sure, worked, snd, Bool.and_eq_true] at h hw ⊢
    exact ⟨⟨snd_mono m (by simp) id (sure_snd m h.1.1 hw.1), sures_snds cs h.1.2 hw.2⟩, rigids_cleans _ h.2⟩
  | .alt cs, ib, z, h, hw => by
    simp only [sure, worked, snd, Bool.and_eq_true] at h hw ⊢
    exact ⟨sures_snds cs h.1 hw, rigids_cleans _ h.2⟩
  | .greedy m lo hi cs, ib, z, h, hw => by
    simp only [sure, worked, snd, Bool.and_eq_true] at h hw ⊢
    obtain ⟨⟨⟨⟨h1, h2⟩, h3⟩, h4⟩, h5⟩ := h
    refine ⟨⟨⟨snd_mono m (by simp) id (sure_snd m h1 hw.1.1), sures_snds cs h2 hw.1.2⟩, rigids_cleans _ h3⟩, ?_⟩
    have hr := rigids_cleans cs
    have hl : lo ≤ hi := by simpa using h4
    have hp := hw.2
    unfold greedyOk
    by_cases ho : optPath m lo hi = true
    · have hz := (optPath_iff m lo hi).1 ho
      simp only [ho, if_true]
      obtain ⟨rfl, rfl, _⟩ := hz
      simp at h5
      cases ib <;> simp_all
    · simp only [ho, Bool.false_eq_true, if_false, Bool.and_eq_true, decide_eq_true_eq]
      refine ⟨hl, ?_⟩
      simp only [Bool.or_eq_true, Bool.and_eq_true] at h5 ⊢
      rcases h5 with ((h5 | h5) | h5) | h5
      · cases ib <;> simp_all
      · exact Or.inl (Or.inl (Or.inl ⟨h5.1.1, hr h5.1.2⟩))
      · exact Or.inl (Or.inr ⟨h5.1.1, rigid_clean m h5.1.2⟩)
      · exact Or.inr h5
  | .lazy m lo hi cs, ib, z, h, hw => by
    simp only [sure, worked, snd, Bool.and_eq_true] at h hw ⊢
    obtain ⟨⟨⟨⟨h1, h2⟩, h3⟩, _⟩, h4⟩ := h
    exact ⟨⟨⟨snd_mono m (by simp) id (sure_snd m h1 hw.1), sures_snds cs h2 hw.2⟩, rigids_cleans _ h3⟩, h4⟩
  | .possessive m lo hi cs, ib, z, h, hw => by
    simp only [sure, worked, snd, Bool.and_eq_true] at h hw ⊢
    obtain ⟨⟨⟨h1, h2⟩, h3⟩, h4⟩ := h
    exact ⟨⟨⟨sure_snd m h1 hw.1, sures_snds cs h2 hw.2⟩, rigids_cleans _ h3⟩, h4⟩
  | .repeated m lo cs, ib, z, h, hw => by
    simp only [sure, worked, snd, Bool.and_eq_true] at h hw ⊢
    exact ⟨⟨sure_snd m h.1.1 hw.1, sures_snds cs h.1.2 hw.2⟩, rigids_cleans _ h.2⟩
  | .group m idx cs, ib, z, h, hw => by
    simp only [sure, worked, snd, Bool.and_eq_true] at h hw ⊢
    exact ⟨⟨snd_mono m (fun hx => by rw [hx]; simp) id (sure_snd m h.1.1 hw.1), sures_snds cs h.1.2 hw.2⟩, rigids_cleans _ h.2⟩
theorem sures_snds : ∀ (cs : List Node) {ib z : Bool}, sures ib z cs = true → workeds ib cs = true → snds ib z cs = true
  | [], _, _, _, _ => rfl
  | c :: cs, ib, z, h, hw => by
    simp only [sures, workeds, snds, Bool.and_eq_true] at h hw ⊢
    exact ⟨sure_snd c h.1 hw.1, sures_snds cs h.2 hw.2⟩
end

theorem opts_dropLast : ∀ (cs : List Node), (opts cs).dropLast = opts cs.dropLast
  | [] => rfl
  | [c] => rfl
  | c :: d :: cs => by simp [opts, ← opts_dropLast (d :: cs)]

mutual
theorem sure_mono : ∀ (t : Node) {ib z z' : Bool}, (z = true → z' = true) → sure ib z t = true → sure ib z' t = true
  | .exact .., _, _, _, _, _ | .range .., _, _, _, _, _ | .word, _, _, _, _, _ | .any, _, _, _, _, _ | .bos, _, _, _, _, _
  | .eol, _, _, _, _, _ | .space, _, _, _, _, _ | .negated _, _, _, _, _, _ => rfl
  | .simple m cs, ib, z, z', h2, h => by
    simp only [sure, Bool.and_eq_true] at h ⊢
    exact ⟨⟨sure_mono m h2 h.1.1, sures_mono cs (by cases z <;> cases z' <;> simp_all) h.1.2⟩, h.2⟩
  | .alt cs, ib, z, z', h2, h => by
    simp only [sure, Bool.and_eq_true] at h ⊢
    exact ⟨sures_mono cs h2 h.1, h.2⟩
  | .greedy m lo hi cs, ib, z, z', h2, h => by
    simp only [sure, Bool.and_eq_true] at h ⊢
    refine ⟨h.1, ?_⟩
    cases z <;> cases z' <;> simp_all
    grind
  | .lazy .., _, _, _, _, h | .possessive .., _, _, _, _, h | .repeated .., _, _, _, _, h | .group .., _, _, _, _, h => h
theorem sures_mono : ∀ (cs : List Node) {ib z z' : Bool}, (z = true → z' = true) → sures ib z cs = true → sures ib z' cs = true
  | [], _, _, _, _, _ => rfl
  | c :: cs, ib, z, z', h2, h => by
    simp only [sures, Bool.and_eq_true] at h ⊢
    exact ⟨sure_mono c h2 h.1, sures_mono cs h2 h.2⟩
end

theorem isBos_opt {m : Node} (inj : List (List Int)) (h : isBos m = true) : isBos (opt m inj) = true := by
  cases m <;> simp_all [isBos, opt]

mutual
/-- The heuristics keep the condition. -/
theorem sure_opt : ∀ (t : Node) (inj : List (List Int)) {ib z : Bool}, sure ib z t = true → sure ib z (opt t inj) = true
  | .exact .., _, _, _, _ | .range .., _, _, _, _ | .word, _, _, _, _ | .any, _, _, _, _ | .bos, _, _, _, _
  | .eol, _, _, _, _ | .space, _, _, _, _ | .negated _, _, _, _, _ => rfl
  | .simple m [], inj, ib, z, h => by
    simp only [sure, sures, Bool.and_eq_true] at h
    rw [opt]; exact sure_opt m inj h.1.1
  | .simple m (c :: cs), inj, ib, z, h => by
    simp only [opt]
    simp only [sure, Bool.and_eq_true] at h ⊢
    refine ⟨⟨sure_opt m inj h.1.1, ?_⟩, ?_⟩
    · have := sures_opts (c :: cs) h.1.2
      refine sures_mono (opts (c :: cs)) ?_ this
      cases z <;> simp; exact isBos_opt inj
    · have := opts_dropLast (c :: cs)
      simp only [opts] at this
      rw [this]; exact rigids_opts _ h.2
  | .alt [], _, _, _, _ => rfl
  | .alt [c], inj, ib, z, h => by
    simp only [sure, sures, Bool.and_eq_true] at h
    rw [opt]; exact sure_opt c inj h.1.1
  | .alt (c :: e :: cs), inj, ib, z, h => by
    simp only [opt]
    simp only [sure, Bool.and_eq_true] at h ⊢
    refine ⟨sures_opts (c :: e :: cs) h.1, ?_⟩
    have := opts_dropLast (c :: e :: cs)
    simp only [opts] at this
    rw [this]; exact rigids_opts _ h.2
  | .greedy m lo hi cs, inj, ib, z, h => by
    simp only [sure, Bool.and_eq_true] at h
    obtain ⟨⟨⟨⟨h1, h2⟩, h3⟩, h4⟩, h5⟩ := h
    simp only [opt]
    split <;> simp only [sure, Bool.and_eq_true, opts_dropLast, parted_opt]
    · exact ⟨⟨⟨sure_opt m [] h1, sures_opts cs h2⟩, rigids_opts _ h3⟩, h4⟩
    · refine ⟨⟨⟨⟨sure_opt m [] h1, sures_opts cs h2⟩, rigids_opts _ h3⟩, h4⟩, ?_⟩
      simp only [Bool.or_eq_true, Bool.and_eq_true] at h5 ⊢
      rcases h5 with ((x | y) | w) | v
      · exact Or.inl (Or.inl (Or.inl x))
      · exact Or.inl (Or.inl (Or.inr ⟨⟨opt_single m [] y.1.1, rigids_opts _ y.1.2⟩, y.2⟩))
      · exact Or.inl (Or.inr ⟨⟨⟨by rw [opts_isEmpty]; exact w.1.1.1, totals_opts cs w.1.1.2⟩, rigid_opt m [] w.1.2⟩, w.2⟩)
      · exact Or.inr v
  | .lazy m lo hi cs, inj, ib, z, h => by
    simp only [sure, Bool.and_eq_true] at h
    obtain ⟨⟨⟨⟨h1, h2⟩, h3⟩, h5⟩, h4⟩ := h
    simp only [opt]
    split <;> simp only [sure, Bool.and_eq_true, opts_dropLast]
    · exact ⟨⟨⟨sure_opt m [] h1, sures_opts cs h2⟩, rigids_opts _ h5⟩, h4⟩
    · exact ⟨⟨⟨⟨sure_opt m [] h1, sures_opts cs h2⟩, rigids_opts _ h3⟩, rigids_opts _ h5⟩, h4⟩
  | .possessive m lo hi cs, inj, ib, z, h => by
    simp only [sure, opt, Bool.and_eq_true, opts_dropLast] at h ⊢
    exact ⟨⟨⟨sure_opt m [] h.1.1.1, sures_opts cs h.1.1.2⟩, rigids_opts _ h.1.2⟩, h.2⟩
  | .repeated m n cs, inj, ib, z, h => by
    simp only [sure, opt, Bool.and_eq_true, opts_dropLast] at h ⊢
    exact ⟨⟨sure_opt m [] h.1.1, sures_opts cs h.1.2⟩, rigids_opts _ h.2⟩
  | .group m idx cs, inj, ib, z, h => by
    simp only [sure, opt, Bool.and_eq_true, opts_dropLast, opts_isEmpty] at h ⊢
    exact ⟨⟨sure_opt m _ h.1.1, sures_opts cs h.1.2⟩, rigids_opts _ h.2⟩
theorem sures_opts : ∀ (cs : List Node) {ib z : Bool}, sures ib z cs = true → sures ib z (opts cs) = true
  | [], _, _, _ => rfl
  | c :: cs, ib, z, h => by
    simp only [sures, opts, Bool.and_eq_true] at h ⊢
    exact ⟨sure_opt c [] h.1, sures_opts cs h.2⟩
end

theorem sure_rounds : ∀ (k : Nat) (t : Node), sure false true t = true → sure false true (rounds k t) = true
  | 0, _, h => h
  | k + 1, t, h => sure_rounds k (opt t []) (sure_opt t [] h)


/-! ## the tree of a pattern -/

mutual
theorem single_rigid : ∀ (t : Node), single t = true → rigid t = true
  | .exact .., _ | .range .., _ | .word, _ | .any, _ => rfl
  | .simple m cs, h => by simp only [single, Bool.and_eq_true] at h; exact single_rigid m h.1
  | .alt cs, h => by simp only [single, Bool.and_eq_true] at h; exact singles_rigids cs h.2
theorem singles_rigids : ∀ (cs : List Node), singles cs = true → rigids cs = true
  | [], _ => rfl
  | c :: cs, h => by
    simp only [singles, rigids, Bool.and_eq_true] at h ⊢
    exact ⟨single_rigid c h.1, singles_rigids cs h.2⟩
end

theorem items_space {items : List Item} (h : items.all Item.steady = true) : items.any Item.isSpace = false := by
  rw [List.any_eq_false]
  intro i hi
  have := List.all_eq_true.1 h i hi
  cases i <;> simp_all [Item.steady, Item.isSpace]

theorem steady_single {a : Atom} (h : a.ok = true) (hs : a.steady = true) (gi : Nat) : single (a.tree gi).1 = true := by
  cases a with
  | chr c => simp [Atom.tree, single]
  | dot => simp [Atom.tree, single]
  | hex a b => simp [Atom.tree, single]
  | oct a b c => simp [Atom.tree, single]
  | esc c =>
    obtain ⟨t, ht, h1⟩ := esc_terminal c h
    simp only [Atom.steady, bne_iff_ne] at hs
    rcases h1 with ⟨_, h1⟩ | ⟨rfl | ⟨s, rfl⟩ | ⟨x, s, rfl⟩, _⟩
    · exact absurd h1 hs
    all_goals simp [Atom.tree, ht, single]
  | cls neg items dash =>
    simp only [Atom.ok, Bool.and_eq_true] at h
    simp only [Atom.steady, Bool.and_eq_true, Bool.not_eq_true'] at hs
    rw [hs.1]
    have := class_single h.1 dash h.2 (items_space hs.2)
    simp only [Atom.tree]
    simp only [single] at this ⊢
    simp [this]
  | group c as => simp [Atom.steady] at hs

theorem tree_empty (s : Sq) (gi : Nat) : s.empty = true → s.tree gi = none := by
  cases s with
  | nil d => cases d <;> simp [Sq.empty, Sq.tree]
  | cons => simp [Sq.empty]

theorem tree_some (s : Sq) (gi : Nat) : s.empty = false → ∃ c, s.tree gi = some c := by
  cases s with
  | nil d => cases d <;> simp [Sq.empty, Sq.tree]
  | cons => simp [Sq.tree]

/-- The atom's node is a `simple` or a `group` around something. -/
theorem atom_form (a : Atom) (gi : Nat) :
    (a.captures = false ∧ ∃ m, (a.tree gi).1 = .simple m []) ∨ (a.captures = true ∧ ∃ m, (a.tree gi).1 = .group m gi []) := by
  cases a with
  | cls neg items dash => cases neg <;> simp [Atom.tree, Atom.captures]
  | group c as => cases c <;> simp [Atom.tree, Atom.captures]
  | _ => simp [Atom.tree, Atom.captures]

theorem free_rigid : ∀ (s : Sq) {b : Bool}, s.free b = true → s.rigid = true
  | .nil _, _, _ => rfl
  | .cons a k s, _, h => by
    simp only [Sq.free, Bool.and_eq_true, beq_iff_eq, Bool.not_eq_true'] at h
    cases k <;> simp_all [Sq.rigid, Quant.lo]

/-- The loop of a quantifier, followed by what cannot fail. -/
theorem rigid_quant {n : Node} {q : Quant} {o : Option Node} (hq : q.ok = true) (hne : q ≠ .once) (hm : q.maybe = false)
    (h : q.lo = 0 ∨ (q.lo = 1 ∧ rigid n = true)) (ho : ∀ c, o = some c → total false c = true ∧ rigid c = true) : rigid (graft (quantTree n q) o) = true := by
  have hu : ∀ k, boundB k = true → ((decimal k).toNat : Nat) < umax := by
    intro k hk
    have := boundB_iff hk
    have := this.2.2
    unfold umax; omega
  have ht : totals false o.toList = true ∧ rigids o.toList = true := by
    cases o with
    | none => exact ⟨rfl, rfl⟩
    | some c => simpa [totals, rigids] using ho c rfl
  have hg : ∀ m lo hi, graft (.greedy m lo hi []) o = .greedy m lo hi o.toList ∧ graft (.lazy m lo hi []) o = .lazy m lo hi o.toList ∧
      graft (.possessive m lo hi []) o = .possessive m lo hi o.toList := by
    intro m lo hi; cases o <;> simp [graft, addChild]
  have hg' : ∀ m lo, graft (.repeated m lo []) o = .repeated m lo o.toList := by
    intro m lo; cases o <;> simp [graft, addChild]
  cases q with
  | once => exact absurd rfl hne
  | exact k m =>
    simp only [quantTree, hg', rigid, Quant.lo, ht] at h ⊢
    rcases h with h | h <;> simp [h]
  | star m | plus m | opt m | atLeast k m | between k l m =>
    cases m <;> simp only [quantTree, polOf, Policy.node, hg, rigid, Quant.lo, ht] at h ⊢ <;>
      rcases h with h | h <;> simp_all [Quant.maybe, Quant.mode, Quant.lo, Quant.hi, umax]

theorem total_quant {n : Node} {q : Quant} {o : Option Node} {b : Bool} (hq : q.ok = true) (hm : q.maybe = false)
    (h : q.lo = 0) (hl : q.mode ≠ .lazy ∨ b = false ∨ o.isSome = true) (ho : ∀ c, o = some c → total false c = true) : total b (graft (quantTree n q) o) = true := by
  have hu : ∀ k, boundB k = true → ((decimal k).toNat : Nat) < umax := by
    intro k hk
    have := boundB_iff hk
    have := this.2.2
    unfold umax; omega
  have ht : totals false o.toList = true := by
    cases o with
    | none => rfl
    | some c => simpa [totals] using ho c rfl
  have he : o.toList.isEmpty = !o.isSome := by cases o <;> rfl
  have hg : ∀ m lo hi, graft (.greedy m lo hi []) o = .greedy m lo hi o.toList ∧ graft (.lazy m lo hi []) o = .lazy m lo hi o.toList ∧
      graft (.possessive m lo hi []) o = .possessive m lo hi o.toList := by
    intro m lo hi; cases o <;> simp [graft, addChild]
  have hg' : ∀ m lo, graft (.repeated m lo []) o = .repeated m lo o.toList := by
    intro m lo; cases o <;> simp [graft, addChild]
  cases q with
  | once => simp [Quant.lo] at h
  | exact k m => simp only [quantTree, hg', total, Quant.lo, ht] at h ⊢; simp [h]
  | star m | plus m | opt m | atLeast k m | between k l m =>
    cases m <;> simp only [quantTree, polOf, Policy.node, hg, total, Quant.lo, ht, he] at h ⊢ <;>
      simp_all [Quant.maybe, Quant.mode, Quant.lo, Quant.hi, umax] <;> grind

theorem free_total : ∀ (s : Sq) {b : Bool}, s.ok = true → s.free b = true → ∀ gi c, s.tree gi = some c → total b c = true
  | .nil d, _, _, h, gi, c, e => by
    simp only [Sq.free, Bool.not_eq_true'] at h
    subst h; simp [Sq.tree] at e
  | .cons a q s, b, h, hf, gi, c, e => by
    simp only [Sq.ok, Bool.and_eq_true] at h
    simp only [Sq.free, Bool.and_eq_true, beq_iff_eq, Bool.not_eq_true'] at hf
    simp only [Sq.tree, Option.some.injEq] at e
    subst e
    refine total_quant h.1.2 hf.1.1.2 hf.1.1.1 ?_ (fun c hc => free_total s h.2 hf.2 _ c hc)
    cases hm : q.mode with
    | lazy =>
      have := hf.1.2
      simp only [hm, Bool.or_eq_true, Bool.not_eq_true'] at this
      rcases this with h1 | h1
      · exact Or.inr (Or.inl h1)
      · obtain ⟨c, hc⟩ := tree_some s (a.tree gi).2 h1
        exact Or.inr (Or.inr (by simp [hc]))
    | greedy => exact Or.inl (by simp)
    | possessive => exact Or.inl (by simp)

mutual
theorem atom_rigid : ∀ (a : Atom), a.ok = true → a.rigid = true → ∀ gi, rigid (a.tree gi).1 = true
  | .group true as, h, hr, gi => by
    simp only [Atom.tree, rigid, totals, Bool.true_and]
    exact trees_rigid as (by simpa [Atom.ok] using h) (by simpa [Atom.rigid] using hr) _
  | .group false as, h, hr, gi => by
    simp only [Atom.tree, rigid]
    exact trees_rigid as (by simpa [Atom.ok] using h) (by simpa [Atom.rigid] using hr) _
  | .chr c, h, hr, gi | .esc c, h, hr, gi => single_rigid _ (steady_single h (by simpa [Atom.rigid] using hr) gi)
  | .dot, h, hr, gi => single_rigid _ (steady_single h (by simpa [Atom.rigid] using hr) gi)
  | .hex a b, h, hr, gi => single_rigid _ (steady_single h (by simpa [Atom.rigid] using hr) gi)
  | .oct a b c, h, hr, gi => single_rigid _ (steady_single h (by simpa [Atom.rigid] using hr) gi)
  | .cls neg items dash, h, hr, gi => single_rigid _ (steady_single h (by simpa [Atom.rigid] using hr) gi)
theorem sq_rigid : ∀ (s : Sq), s.ok = true → s.rigid = true → ∀ gi c, s.tree gi = some c → rigid c = true
  | .nil d, _, _, gi, c, e => by cases d <;> simp [Sq.tree] at e; subst e; rfl
  | .cons a q s, h, hr, gi, c, e => by
    simp only [Sq.ok, Bool.and_eq_true] at h
    simp only [Sq.tree, Option.some.injEq] at e
    subst e
    by_cases hq : q = .once
    · subst hq
      simp only [Sq.rigid, Bool.and_eq_true, Bool.or_eq_true, Bool.not_eq_true'] at hr
      have h1 := atom_rigid a h.1.1 hr.1 gi
      simp only [quantTree]
      rcases atom_form a gi with ⟨hc, m, hm⟩ | ⟨hc, m, hm⟩
      · rw [hm] at h1 ⊢
        cases s.tree (a.tree gi).2 <;> simpa [graft, addChild, rigid] using h1
      · have hf : s.free true = true := by rcases hr.2 with h2 | h2 <;> simp_all
        rw [hm] at h1 ⊢
        simp only [rigid, totals, Bool.true_and] at h1
        cases hs : s.tree (a.tree gi).2 with
        | none => simp [graft, rigid, totals, h1]
        | some c => simp [graft, addChild, rigid, totals, h1, free_total s h.2 hf _ c hs]
    · have hr' : s.free false = true ∧ q.maybe = false ∧ (q.lo = 0 ∨ (q.lo = 1 ∧ a.rigid = true)) := by
        cases q <;> simp_all [Sq.rigid, and_assoc]
      exact rigid_quant h.1.2 hq hr'.2.1 (hr'.2.2.imp id (fun x => ⟨x.1, atom_rigid a h.1.1 x.2 gi⟩))
        (fun c hc => ⟨free_total s h.2 hr'.1 _ c hc, sq_rigid s h.2 (free_rigid s hr'.1) _ c hc⟩)
theorem piece_rigid : ∀ (hat : Bool) (s : Sq), s.ok = true → (hat || !s.empty) = true → (hat || s.rigid) = true → ∀ gi, rigid (pieceTree hat s gi) = true
  | true, s, h, _, _, gi => by
    simp only [pieceTree, if_true]
    cases s.tree gi <;> simp [graft, addChild, rigid]
  | false, s, h, he, hr, gi => by
    obtain ⟨c, hc⟩ := tree_some s gi (by simpa using he)
    simpa [pieceTree, hc] using sq_rigid s h (by simpa using hr) gi c hc
theorem trees_rigid : ∀ (as : Alts), as.ok = true → as.rigid = true → ∀ gi, rigids (as.trees gi) = true
  | .last hat s, h, hr, gi => by
    simp only [Alts.ok, Bool.and_eq_true] at h
    have := piece_rigid hat s h.1 h.2 (by simpa [Alts.rigid] using hr) gi
    unfold pieceTree at this
    simp only [Alts.trees, rigids, this, Bool.and_true]
  | .more hat s as, h, hr, gi => by
    simp only [Alts.ok, Bool.and_eq_true] at h
    simp only [Alts.rigid, Bool.and_eq_true] at hr
    have := piece_rigid hat s h.1.1 h.1.2 hr.1 gi
    unfold pieceTree at this
    simp only [Alts.trees, rigids, this, Bool.true_and]
    exact trees_rigid as h.2 hr.2 gi
end

/-- Sets of the trees of one-character atoms. -/
theorem atom_adm {a : Atom} (h : a.ok = true) (hs : (a.steady || a.skips) = true) (hc : a.spell.all allChars.contains = true) (gi : Nat) :
    Atomic a (a.tree gi).1 ∧ ∃ n, (a.tree gi).1 = .simple n [] ∧ Atomic a n := by
  obtain ⟨n, b, hn, hcl⟩ := atom_node a h hs (fun x hx => by simpa using List.all_eq_true.1 hc x hx)
  have h1 := atom_tree a h gi [] none
  have h2 := H_node (last := none) (gi := gi) (hcl true [])
  rw [h1, H_nil, H_nil] at h2
  have e : (a.tree gi).1 = .simple n [] := by simpa [addChild] using h2
  exact ⟨by rw [e]; exact hn.wrap, n, e, hn⟩

theorem intersect_left (l : List Int) : intersectSets [] l = [] := by
  unfold intersectSets
  cases h : ([] : List Int).length + l.length <;> simp [intersectAux]

theorem intersect_right (l : List Int) : intersectSets l [] = [] := by
  unfold intersectSets
  cases h : l.length + ([] : List Int).length <;> cases l <;> simp_all [intersectAux]

/-- The sets of what follows. -/
theorem next_shows {s : Sq} (h : s.ok = true) {gi : Nat} {c : Node} (hc : s.tree gi = some c) :
    (∃ x, s.next x = true ∧ ∀ y, s.next y = true) ∨ ((∀ x, x ∈ admSet c ↔ s.next x = true) ∧ Sorted (admSet c)) := by
  cases s with
  | nil d =>
    cases d with
    | false => simp [Sq.tree] at hc
    | true =>
      simp [Sq.tree] at hc
      subst hc
      right
      have e : admSet (.simple .eol []) = complementSet [10] := by simp [admSet, minSize, admSets, extractAdm_one]
      rw [e]
      exact ⟨fun x => by rw [mem_eolSet]; simp [Sq.next], sorted_complementSet (by simp [Sorted])⟩
  | cons a q s =>
    simp only [Sq.ok, Bool.and_eq_true] at h
    by_cases hcond : ((a.steady || a.skips) && q.lo != 0 && a.spell.all allChars.contains) = true
    · right
      have hnext : ∀ x, (Sq.cons a q s).next x = a.shown x := fun x => by simp only [Sq.next, hcond, if_true]
      simp only [Bool.and_eq_true, bne_iff_ne, ne_eq] at hcond
      obtain ⟨h1, n, hn, h2⟩ := atom_adm h.1.1 hcond.1.1 hcond.2 gi
      simp only [Sq.tree, Option.some.injEq] at hc
      have hadm : admSet c = admSet (a.tree gi).1 := by
        subst hc
        have hlo := hcond.1.2
        cases hs : s.tree (a.tree gi).2 with
        | none =>
          cases q with
          | once => rfl
          | exact k m => simp [quantTree, graft, admSet, extractAdm_one]
          | star m | opt m => simp [Quant.lo] at hlo
          | plus m | atLeast k m | between k l m =>
            cases m <;> simp only [quantTree, graft, polOf, Policy.node, admSet, Quant.lo] at hlo ⊢ <;> rw [if_neg hlo]
        | some d =>
          cases q with
          | once =>
            rw [hn]
            simp [quantTree, graft, addChild, admSet, h2.size, extractAdm_one]
          | exact k m => simp [quantTree, graft, addChild, admSet, extractAdm_one]
          | star m | opt m => simp [Quant.lo] at hlo
          | plus m | atLeast k m | between k l m =>
            cases m <;> simp only [quantTree, graft, addChild, Option.getD_some, polOf, Policy.node, admSet, Quant.lo] at hlo ⊢ <;> rw [if_neg hlo]
      exact ⟨fun x => by rw [hadm, h1.adm, hnext], by rw [hadm]; exact h1.sorted⟩
    · left
      have : ∀ y, (Sq.cons a q s).next y = true := fun y => by simp only [Sq.next]; rw [if_neg hcond]
      exact ⟨0, this 0, this⟩

theorem parts_parted {a : Atom} (h : a.ok = true) {s : Sq} (hs : s.ok = true) (hp : a.parts s = true) (gi gi' : Nat) :
    parted (a.tree gi).1 (s.tree gi').toList = true := by
  by_cases he : s.empty = true
  · rw [tree_empty s gi' he]
    simp [parted, admSets, extractAdm, intersect_right]
  obtain ⟨c, hc⟩ := tree_some s gi' (by simpa using he)
  simp only [Atom.parts, he, Bool.false_or, Bool.and_eq_true, Bool.not_eq_true'] at hp
  obtain ⟨⟨h1, h2⟩, h3⟩ := hp
  have ha := (atom_adm h h1 h2 gi).1
  rw [hc]
  simp only [Option.toList, parted, admSets, extractAdm_one]
  rcases next_shows hs hc with ⟨_, _, hall⟩ | ⟨hm, hso⟩
  · have : admSet (a.tree gi).1 = [] := by
      rw [List.eq_nil_iff_forall_not_mem]
      intro x hx
      have hx := (ha.adm x).1 hx
      have : meets a.shown s.next = true := (meets_iff _ _).2 ⟨x, ha.char x hx, hx, hall x⟩
      rw [h3] at this; cases this
    rw [this, intersect_left]; rfl
  · cases hi : (intersectSets (admSet (a.tree gi).1) (admSet c)).isEmpty with
    | true => rfl
    | false =>
      obtain ⟨x, hx, hx'⟩ := (isEmpty_inter ha.sorted hso).1 hi
      have hx := (ha.adm x).1 hx
      have : meets a.shown s.next = true := (meets_iff _ _).2 ⟨x, ha.char x hx, hx, (hm x).1 hx'⟩
      rw [h3] at this; cases this

theorem graft_simple {ib z : Bool} {m : Node} {o : Option Node} (h : sure ib z m = true)
    (ho : ∀ c, o = some c → sure ib (z && isBos m) c = true) : sure ib z (graft (.simple m []) o) = true := by
  cases o with
  | none => simp [graft, sure, sures, h, rigids]
  | some c => simp [graft, addChild, sure, sures, h, ho c rfl, rigids]

theorem graft_group {ib z : Bool} {m : Node} {idx : Nat} {o : Option Node} (h : sure (ib || o.isSome) false m = true)
    (ho : ∀ c, o = some c → sure true false c = true) : sure ib z (graft (.group m idx []) o) = true := by
  cases o with
  | none => simp [graft, sure, sures, rigids] at h ⊢; exact h
  | some c => simp [graft, addChild, sure, sures, ho c rfl, rigids] at h ⊢; exact h

/-- What the quantified node has to meet. -/
def loopSure (ib z : Bool) (q : Quant) (n : Node) (cs : List Node) : Bool :=
  match q.mode with
  | .possessive => true
  | .lazy => rigids cs
  | .greedy => (!ib && parted n cs) || (single n && rigids cs && (!q.maybe || z)) || (!cs.isEmpty && totals false cs && rigid n && !q.maybe) || q.hi == some q.lo

theorem graft_loop {ib z : Bool} {n : Node} {q : Quant} (hq : q.ok = true) (h1 : q ≠ .once) (hx : q.isExact = false) (ho : q.ordered = true) {o : Option Node}
    (h : sure ib false n = true) (hs : ∀ c, o = some c → sure false false c = true) (hl : loopSure ib z q n o.toList = true) :
    sure ib z (graft (quantTree n q) o) = true := by
  have hcs : sures false false o.toList = true := by
    cases o with
    | none => rfl
    | some c => simp [sures, hs c rfl]
  have hd : rigids (o.toList.dropLast) = true := by cases o <;> rfl
  have hu : ∀ k, boundB k = true → ((decimal k).toNat : Nat) < umax := by
    intro k hk
    have := (boundB_iff hk).2.2
    unfold umax; omega
  have key : ∀ (pol : Policy) (lo hi : Nat), lo ≤ hi → q.mode = (match pol with | .greedy => .greedy | .lazy => .lazy | .possessive => .possessive) →
      (q.mode = .greedy → (lo = 0 ∧ hi = 1 ↔ q.maybe = true) ∧ (q.hi = some q.lo → lo = hi)) →
      sure ib z (graft (pol.node n lo hi) o) = true := by
    intro pol lo hi hle hm hg
    have e : graft (pol.node n lo hi) o = (match pol with
      | .greedy => .greedy n lo hi o.toList | .lazy => .lazy n lo hi o.toList | .possessive => .possessive n lo hi o.toList) := by
      cases pol <;> cases o <;> rfl
    rw [e]
    cases pol with
    | possessive => simp [sure, h, hcs, hd, hle]
    | lazy =>
      simp only [loopSure, hm] at hl
      simp [sure, h, hcs, hd, hle, hl]
    | greedy =>
      have hg := hg hm
      simp only [loopSure, hm, Bool.or_eq_true, Bool.and_eq_true] at hl
      simp only [sure, h, hcs, hd, decide_eq_true hle, Bool.and_self, Bool.true_and, Bool.or_eq_true, Bool.and_eq_true]
      have hnm : (!q.maybe) = true → (!(lo == 0 && hi == 1)) = true := by
        intro h2
        cases hb : (lo == 0 && hi == 1) with
        | false => rfl
        | true => simp at hb; rw [hg.1.1 hb] at h2; simp at h2
      rcases hl with ((hl | hl) | hl) | hl
      · exact Or.inl (Or.inl (Or.inl hl))
      · exact Or.inl (Or.inl (Or.inr ⟨hl.1, hl.2.imp hnm id⟩))
      · exact Or.inl (Or.inr ⟨hl.1, hnm hl.2⟩)
      · exact Or.inr (by simpa using hg.2 (by simpa using hl))
  cases q with
  | once => exact absurd rfl h1
  | exact k m => simp [Quant.isExact] at hx
  | star m => exact key _ _ _ (by simp [umax]) (by cases m <;> rfl) (by simp [Quant.maybe, Quant.mode, Quant.hi, umax]; rintro rfl; simp)
  | plus m => exact key _ _ _ (by simp [umax]) (by cases m <;> rfl) (by simp [Quant.maybe, Quant.mode, Quant.hi, umax]; rintro rfl; simp)
  | opt m => exact key _ _ _ (by simp) (by cases m <;> rfl) (by simp [Quant.maybe, Quant.mode, Quant.hi, Quant.lo]; rintro rfl; simp)
  | atLeast k m =>
    have := hu k (by simpa [Quant.ok] using hq)
    exact key _ _ _ (by omega) (by cases m <;> rfl) (by simp [Quant.maybe, Quant.mode, Quant.hi, umax]; rintro rfl; simp)
  | between k l m =>
    have ho : (decimal k).toNat ≤ (decimal l).toNat := by have := ho; unfold Quant.ordered at this; simp [Quant.hi, Quant.lo] at this; omega
    exact key _ _ _ ho (by cases m <;> rfl) (by simp only [Quant.maybe, Quant.mode, Quant.hi, Quant.lo]; rintro rfl; simp; omega)

theorem sures_all {ib z : Bool} : ∀ (l : List Node), (∀ n ∈ l, sure ib z n = true) → sures ib z l = true
  | [], _ => rfl
  | c :: l, h => by
    simp only [sures, Bool.and_eq_true]
    exact ⟨h c (by simp), sures_all l (fun n hn => h n (by simp [hn]))⟩

theorem rigids_all : ∀ (l : List Node), (∀ n ∈ l, rigid n = true) → rigids l = true
  | [], _ => rfl
  | c :: l, h => by
    simp only [rigids, Bool.and_eq_true]
    exact ⟨h c (by simp), rigids_all l (fun n hn => h n (by simp [hn]))⟩

theorem item_sure {i : Item} (h : i.ok = true) (ib z : Bool) : sure ib z (itemTree i) = true := by
  cases i with
  | chr c => rfl
  | rng a b => rfl
  | esc c =>
    obtain ⟨t, ht, h1⟩ := esc_terminal c h
    rcases h1 with ⟨rfl, h1⟩ | ⟨rfl | ⟨s, rfl⟩ | ⟨x, s, rfl⟩, _⟩
    all_goals simp [itemTree, ht, sure, sures, rigids]

theorem item_rigid {i : Item} (h : i.ok = true) (hs : i.steady = true) : rigid (itemTree i) = true := by
  cases i with
  | chr c => rfl
  | rng a b => rfl
  | esc c =>
    obtain ⟨t, ht, h1⟩ := esc_terminal c h
    simp only [Item.steady, bne_iff_ne] at hs
    rcases h1 with ⟨rfl, h1⟩ | ⟨rfl | ⟨s, rfl⟩ | ⟨x, s, rfl⟩, _⟩
    · exact absurd h1 hs
    all_goals simp [itemTree, ht, rigid]

theorem class_sure {items : List Item} {dash : Bool} (h : items.all Item.ok = true)
    (hs : (if dash then items else items.dropLast).all Item.steady = true) (ib z : Bool) : sure ib z (.alt (classTrees items dash)) = true := by
  simp only [sure, Bool.and_eq_true]
  refine ⟨sures_all _ fun n hn => ?_, rigids_all _ fun n hn => ?_⟩
  · simp only [classTrees, List.mem_append, List.mem_map] at hn
    rcases hn with ⟨i, hi, rfl⟩ | hn
    · exact item_sure (List.all_eq_true.1 h i hi) ib z
    · cases dash with
      | false => simp at hn
      | true => simp at hn; subst hn; rfl
  · cases dash with
    | false =>
      simp only [classTrees, Bool.false_eq_true, if_false, List.append_nil, ← List.map_dropLast, List.mem_map] at hn hs
      obtain ⟨i, hi, rfl⟩ := hn
      exact item_rigid (List.all_eq_true.1 h i (List.dropLast_subset _ hi)) (List.all_eq_true.1 hs i hi)
    | true =>
      simp only [classTrees, if_true, List.dropLast_concat, List.mem_map] at hn hs
      obtain ⟨i, hi, rfl⟩ := hn
      exact item_rigid (List.all_eq_true.1 h i hi) (List.all_eq_true.1 hs i hi)

/-- What is inside the atom's node. -/
def inside : Node → Node
  | .simple m _ | .group m _ _ => m
  | n => n

theorem not_exact {q : Quant} (h : q.isExact = true) : ∃ k m, q = .exact k m := by
  cases q <;> simp_all [Quant.isExact]

mutual
theorem atom_sure : ∀ (a : Atom) {ib z : Bool}, a.ok = true → a.sure ib z = true → ∀ gi, sure ib (z && !a.captures) (inside (a.tree gi).1) = true
  | .chr c, ib, z, _, _, _ | .dot, ib, z, _, _, _ | .hex .., ib, z, _, _, _ | .oct .., ib, z, _, _, _ => by simp [Atom.tree, inside, sure]
  | .esc c, ib, z, h, _, _ => by
    obtain ⟨t, ht, h1⟩ := esc_terminal c h
    rcases h1 with ⟨rfl, h1⟩ | ⟨rfl | ⟨s, rfl⟩ | ⟨x, s, rfl⟩, _⟩
    all_goals simp [Atom.tree, ht, inside, sure]
  | .cls true items dash, ib, z, _, _, _ => by simp [Atom.tree, inside, sure]
  | .cls false items dash, ib, z, h, hs, _ => by
    simp only [Atom.ok, Bool.and_eq_true] at h
    simp only [Atom.sure] at hs
    simp only [Atom.tree, inside]
    exact class_sure h.1 hs _ _
  | .group true as, ib, z, h, hs, gi => by
    simp only [Atom.tree, inside, Atom.captures, Bool.not_true, Bool.and_false, sure, Bool.and_eq_true]
    exact trees_sure as (by simpa [Atom.ok] using h) (by simpa [Atom.sure] using hs) _
  | .group false as, ib, z, h, hs, gi => by
    simp only [Atom.tree, inside, Atom.captures, Bool.not_false, Bool.and_true, sure, Bool.and_eq_true]
    exact trees_sure as (by simpa [Atom.ok] using h) (by simpa [Atom.sure] using hs) _
theorem sq_sure : ∀ (s : Sq) {ib z : Bool}, s.ok = true → s.sure ib z = true → ∀ gi c, s.tree gi = some c → sure ib z c = true
  | .nil d, ib, z, _, _, gi, c, e => by cases d <;> simp [Sq.tree] at e; subst e; rfl
  | .cons a q s, ib, z, h, hr, gi, c, e => by
    simp only [Sq.ok, Bool.and_eq_true] at h
    simp only [Sq.tree, Option.some.injEq] at e
    subst e
    by_cases hq : q = .once
    · subst hq
      simp only [Sq.sure, Bool.and_eq_true] at hr
      have h1 := atom_sure a h.1.1 hr.1 gi
      have h2 := fun c hc => sq_sure s h.2 hr.2 (a.tree gi).2 c hc
      simp only [quantTree]
      rcases atom_form a gi with ⟨hc, m, hm⟩ | ⟨hc, m, hm⟩
      · rw [hm] at h1 ⊢
        simp only [hc, Bool.false_and, Bool.or_false, Bool.not_false, Bool.and_true, inside] at h1 h2
        exact graft_simple h1 (fun c e => sure_mono c (by simp) (h2 c e))
      · rw [hm] at h1 ⊢
        simp only [hc, Bool.true_and, Bool.or_true, Bool.not_true, Bool.and_false, inside] at h1 h2
        refine graft_group ?_ h2
        cases he : s.empty with
        | true => rw [he] at h1; rw [tree_empty s _ he]; simpa using h1
        | false =>
          rw [he] at h1
          obtain ⟨d, hd⟩ := tree_some s (a.tree gi).2 he
          rw [hd]; simpa using h1
    · have wrap : ∀ ib', a.sure ib' false = true → sure ib' false (a.tree gi).1 = true := by
        intro ib' hs
        have h1 := atom_sure a h.1.1 hs gi
        rcases atom_form a gi with ⟨hc, m, hm⟩ | ⟨hc, m, hm⟩
        · rw [hm] at h1 ⊢; simpa [inside, sure, sures, rigids] using h1
        · rw [hm] at h1 ⊢; simpa [inside, sure, sures, rigids] using h1
      by_cases hx : q.isExact = true
      · obtain ⟨k, m, rfl⟩ := not_exact hx
        have hr' : a.sure false false = true ∧ s.sure false false = true := by simpa [Sq.sure, Quant.isExact] using hr
        have h1 := wrap false hr'.1
        have h2 := fun c hc => sq_sure s h.2 hr'.2 (a.tree gi).2 c hc
        cases hs : s.tree (a.tree gi).2 with
        | none => simpa [quantTree, graft, sure, sures, rigids] using h1
        | some d => simpa [quantTree, graft, addChild, sure, sures, rigids, h2 d hs] using h1
      · have hr' : a.sure ib false = true ∧ s.sure false false = true ∧ q.ordered = true ∧ (match q.mode with
            | .possessive => true
            | .lazy => s.rigid
            | .greedy => (!ib && a.parts s) || (a.steady && s.rigid && (!q.maybe || z)) ||
                (a.rigid && !s.empty && s.free false && !q.maybe) || q.hi == some q.lo) = true := by
          cases q with
          | once => exact absurd rfl hq
          | exact k m => simp [Quant.isExact] at hx
          | star m | plus m | opt m | atLeast k m | between k l m =>
            simp only [Sq.sure, Quant.isExact, Bool.false_eq_true, if_false, Bool.and_eq_true, and_assoc] at hr
            exact hr
        have h2 := fun c hc => sq_sure s h.2 hr'.2.1 (a.tree gi).2 c hc
        refine graft_loop h.1.2 hq (by simpa using hx) hr'.2.2.1 (wrap ib hr'.1) h2 ?_
        have hl := hr'.2.2.2
        have hrig : s.rigid = true → rigids (s.tree (a.tree gi).2).toList = true := by
          intro hrg
          cases hs : s.tree (a.tree gi).2 with
          | none => rfl
          | some d => simp [rigids, sq_rigid s h.2 hrg _ d hs]
        unfold loopSure
        cases hm : q.mode with
        | possessive => rfl
        | lazy => rw [hm] at hl; exact hrig hl
        | greedy =>
          rw [hm] at hl
          simp only [Bool.or_eq_true, Bool.and_eq_true] at hl ⊢
          rcases hl with ((hl | hl) | hl) | hl
          · exact Or.inl (Or.inl (Or.inl ⟨hl.1, parts_parted h.1.1 h.2 hl.2 gi _⟩))
          · exact Or.inl (Or.inl (Or.inr ⟨⟨steady_single h.1.1 hl.1.1 gi, hrig hl.1.2⟩, hl.2⟩))
          · refine Or.inl (Or.inr ⟨⟨?_, atom_rigid a h.1.1 hl.1.1.1 gi⟩, hl.2⟩)
            obtain ⟨d, hd⟩ := tree_some s (a.tree gi).2 (by simpa using hl.1.1.2)
            rw [hd]
            exact ⟨rfl, by simpa [totals] using free_total s h.2 hl.1.2 _ d hd⟩
          · exact Or.inr hl
theorem piece_sure : ∀ (hat : Bool) (s : Sq) {ib z : Bool}, s.ok = true → (hat || !s.empty) = true → s.sure ib z = true → ∀ gi, sure ib z (pieceTree hat s gi) = true
  | true, s, ib, z, h, _, hs, gi => by
    simp only [pieceTree, if_true]
    exact graft_simple rfl (fun c hc => by simpa [isBos] using sq_sure s h hs gi c hc)
  | false, s, ib, z, h, he, hs, gi => by
    obtain ⟨c, hc⟩ := tree_some s gi (by simpa using he)
    simpa [pieceTree, hc] using sq_sure s h hs gi c hc
theorem trees_sure : ∀ (as : Alts) {ib z : Bool}, as.ok = true → as.sure ib z = true → ∀ gi,
    sures ib z (as.trees gi) = true ∧ rigids (as.trees gi).dropLast = true
  | .last hat s, ib, z, h, hs, gi => by
    simp only [Alts.ok, Bool.and_eq_true] at h
    have := piece_sure hat s h.1 h.2 (by simpa [Alts.sure] using hs) gi
    unfold pieceTree at this
    simp [Alts.trees, sures, this, rigids]
  | .more hat s as, ib, z, h, hs, gi => by
    simp only [Alts.ok, Bool.and_eq_true] at h
    simp only [Alts.sure, Bool.and_eq_true] at hs
    have h1 := piece_sure hat s h.1.1 h.1.2 hs.1.1 gi
    have h2 := piece_rigid hat s h.1.1 h.1.2 hs.1.2 gi
    have h3 := trees_sure as h.2 hs.2 gi
    unfold pieceTree at h1 h2
    simp only [Alts.trees, sures, h1, h3.1, Bool.and_self, true_and]
    cases ht : as.trees gi with
    | nil => simp [rigids]
    | cons x l =>
      have h3 := h3.2
      rw [ht] at h3
      simp only [List.dropLast_cons_cons, rigids, h2, h3, Bool.and_self]
end

theorem tops_sure {ib z : Bool} : ∀ (as : Alts), as.ok = true → as.sure ib z = true → ∀ gi,
    sures ib z (as.tops gi) = true ∧ rigids (as.tops gi).dropLast = true
  | .last hat s, h, hs, gi => by
    simp only [Alts.ok, Bool.and_eq_true] at h
    have := piece_sure hat s h.1 h.2 (by simpa [Alts.sure] using hs) gi
    simp [Alts.tops, sures, this, rigids]
  | .more hat s as, h, hs, gi => by
    simp only [Alts.ok, Bool.and_eq_true] at h
    simp only [Alts.sure, Bool.and_eq_true] at hs
    have h1 := piece_sure hat s h.1.1 h.1.2 hs.1.1 gi
    have h2 := piece_rigid hat s h.1.1 h.1.2 hs.1.2 gi
    have h3 := tops_sure as h.2 hs.2 (nextIdx (pieceTree hat s gi))
    simp only [Alts.tops, sures, h1, h3.1, Bool.and_self, true_and]
    cases ht : as.tops (nextIdx (pieceTree hat s gi)) with
    | nil => simp [rigids]
    | cons x l =>
      have h3 := h3.2
      rw [ht] at h3
      simp only [List.dropLast_cons_cons, rigids, h2, h3, Bool.and_self]

/-- The compiled tree of a pattern that meets the condition is sound. -/
theorem compile_sure {as : Alts} (h : as.ok = true) (hs : as.sure false true = true) {t : Node} (hc : compile as.spell = some t) :
    snd false true t = true := by
  have hb := build_tree as h
  simp only [compile, hb, Option.bind_some] at hc
  obtain ⟨k, rfl⟩ := optFix_rounds _ _ _ hc
  have hst : opt (rounds k as.tree) [] = rounds k as.tree := optFix_stable _ _ _ hc
  have h1 : sure false true as.tree = true := by
    have := tops_sure as h hs 0
    simp only [Alts.tree, sure, this.1, this.2, Bool.and_self]
  refine sure_snd _ (sure_rounds k _ h1) ?_
  rw [← hst]
  exact worked_opt _ [] false (fun _ => rfl)

end ERegex

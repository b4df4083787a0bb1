import Verif.Proofs.Address
import Verif.Props.FindAll
/-!
# C69 : the patterns of the benchmark and of the README
-/
set_option autoImplicit false
namespace ERegex.Props
open ERegex ERegex.Spec
open ERegex.Conformance (lit m)

/-- Attempts that decide `f` find all its occurrences. -/
theorem finds_attempts {p : List Int} {t : Node} (ht : compile p = some t) {f : List Int → Nat → Option Nat}
    (hf : ∀ q x e, f q x = some e → x < e ∧ e ≤ q.length ∧ x < q.length)
    (ha : ∀ cx : Ctx, (∀ c ∈ cx.query, c ∈ allChars) → cx.query.length < 4294967295 →
      AttemptsG cx t (fun x => f cx.query x ≠ none) (fun s st => f cx.query s = some (off st))) : FindsAll p f := by
  refine ⟨t, ht, fun cx hq hlen fuel hfuel => ?_⟩
  have ha := ha cx hq hlen
  have hnot : ∀ x, ¬ (f cx.query x ≠ none) → f cx.query x = none := fun x h => Classical.not_not.1 h
  have key : ∀ (n : Nat) (it : St) (s e : Nat) (r : St), Reach cx t it → toView it = some ((s : Int), (e : Int)) → e ≤ cx.query.length →
      cx.query.length - e < n → ∃ l, Scan (f cx.query) cx.query.length e l ∧ visit cx t fuel (endR r) n it = some ((some ((s : Int), (e : Int))) :: l.map span, true) := by
    intro n
    induction n with
    | zero => intro it s e r _ _ _ h; omega
    | succ n ih =>
      intro it s e r hreach hv hle hn
      have hacc := view_eq hv
      have hpos : it.pos = e := by
        simp only [toView, hacc, if_true, Option.some.injEq, Prod.mk.injEq] at hv; exact hv.2
      have hb2 := inv_pos (reach_inv ha.good hreach)
      rcases next_good ha.good fuel it hb2.1 hb2.2 with ⟨st', f1, hi⟩ | ⟨_, h2⟩
      · have hl := next_left ha hb2.1 f1
        have hoff : off it = e := by unfold off; omega
        rw [hoff] at hl
        simp only [visit, neqR_end, hacc, if_true, f1, hv]
        cases hac : st'.accepted with
        | true =>
          obtain ⟨s', s1, s2, s3, s4, s5⟩ := hl.hit hac
          have hb := hf _ _ _ s4
          have h0 := (inv_pos (reach_inv ha.good (.next hreach f1))).1
          have hv' : toView st' = some ((s' : Int), ((off st' : Nat) : Int)) := by
            simp only [toView, hac, if_true, Option.some.injEq, Prod.mk.injEq]
            unfold off; omega
          obtain ⟨l, i1, i2⟩ := ih st' s' (off st') r (.next hreach f1) hv' hb.2.1 (by omega)
          refine ⟨(s', off st') :: l, .hit s2 s4 (fun x h1 h2 => hnot x (fun h => ?_)) i1, ?_⟩
          · have := s5 x h1 h; omega
          · rw [i2]; simp [span]
        | false =>
          refine ⟨[], .stop (fun x h1 h2 => hnot x (hl.miss hac x h1 h2)), ?_⟩
          cases n <;> simp [visit, neqR_end, hac]
      · simp only [Ctx.qend] at h2; omega
  rcases construct_good ha.good fuel with ⟨st, e1, hi⟩ | ⟨_, h2⟩
  · have hl := construct_left ha e1
    cases hac : st.accepted with
    | true =>
      obtain ⟨s, s1, s2, s4, s5⟩ := hl.hit hac
      have hb := hf _ _ _ s4
      have h0 := (inv_pos (reach_inv ha.good (.make e1))).1
      have hv' : toView st = some ((s : Int), ((off st : Nat) : Int)) := by
        simp only [toView, hac, if_true, Option.some.injEq, Prod.mk.injEq]
        unfold off; omega
      obtain ⟨l, i1, _⟩ := key cx.query.length st s (off st) st (.make e1) hv' hb.2.1 (by omega)
      refine ⟨(s, off st) :: l, .hit (Nat.zero_le _) s4 (fun x h1 h2 => hnot x (fun h => ?_)) i1, ⟨st, e1, by simp [hv', span]⟩, fun r => ?_⟩
      · have := s5 x h; omega
      obtain ⟨l', j1, j2⟩ := key cx.query.length st s (off st) r (.make e1) hv' hb.2.1 (by omega)
      have := scan_unique i1 (fun s e h => (hf _ _ _ h).2.2) j1
      subst this
      simp only [rangeFor, beginR, e1, j2]
      simp [span]
    | false =>
      refine ⟨[], .stop (fun x _ h2 => hnot x (hl.miss hac x (Or.inr h2))), ⟨st, e1, by simp [toView, hac]⟩, fun r => ?_⟩
      simp only [rangeFor, beginR, e1]
      cases cx.query.length <;> simp [visit, neqR_end, hac]
  · simp only [Ctx.qend] at h2; omega

private def ip : String := "(?:(?:25[0-5]|2[0-4][0-9]|[01]?[0-9][0-9])\\.){3}(?:25[0-5]|2[0-4][0-9]|[01]?[0-9][0-9])"

theorem ip_compiles : compile (str ip) = some addressN := by decide +kernel

theorem ip_attempts (cx : Ctx) : AttemptsG cx addressN (fun x => octets cx.query 3 x ≠ none) (fun s st => octets cx.query 3 s = some (off st)) := by
  refine ⟨safeTree (nul := false) (by simp) (by decide +kernel) (by decide +kernel), ?_⟩
  intro L s st st' hL hs hg hst _ e1
  have h1 := hg.start; have h2 := hg.pos; have h3 := hg.lo
  simp only at h1 h2 h3
  simp only [Ctx.qend] at h2
  obtain ⟨st2, r1, r2, r3⟩ := address_run (cx := cx) (st := st) (p := off st) (by unfold off; omega) (by unfold off; omega) (by unfold off; omega)
  rw [r1] at e1; cases e1
  cases hc : octets cx.query 3 (off st) with
  | some e =>
    have := r2 e hc
    subst this
    simp [off]
  | none =>
    obtain ⟨z, rfl, hz⟩ := r3 hc
    refine ⟨by simp, by simp, fun _ x h1 h2 => ?_⟩
    simp only [ne_eq, Classical.not_not]
    exact hz x h1 (by simpa [off] using h2)

/-- **C69.** The pattern for IPv4 addresses of the benchmark compiles and, in every query: matching reports the first of the addresses
(four numbers of two or three digits, at most 255, with dots in between), from the first position at which one begins to the end of the
longest that begins there; a range-for visits all addresses from left to right without overlap, each of them the longest at its position,
and none is left out.  (Backtracking is needed to find them: `[01]?` gives back its digit.) -/
theorem C69_address : ∃ f, (∀ q x e, x ≤ q.length → (f q x = some e ↔ LongestAddress q x e)) ∧ FindsAll (str ip) f :=
  ⟨fun q x => octets q 3 x, fun q x e h => octets_longest q x e h,
   finds_attempts ip_compiles (fun _ _ _ h => octets_bounds h) (fun cx _ _ => ip_attempts cx)⟩

-- the numbers that are found are not those a reader of the address grammar expects: one-digit ones are not
example : m ip "11.2222.33.44.55" = some [some "222.33.44.55"] := by decide +kernel
example : m ip "at 192.168.10.256!" = some [some "192.168.10.25"] := by decide +kernel
example : m ip "10.0.0.1" = none := by decide +kernel

end ERegex.Props

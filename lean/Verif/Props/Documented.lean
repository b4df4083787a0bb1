import Verif.Spec.Documented
import Verif.Props.Records
import Verif.Props.Address
/-!
# C69 : the patterns of the README and of the benchmark
-/
set_option autoImplicit false
namespace ERegex.Props
open ERegex ERegex.Spec
open ERegex.Conformance (lit m)

private theorem digit_set : (Atom.esc 100).set = digitC := by
  funext c
  simp [Atom.set, digitC, escape]

/-- **C69.** The pattern for dates of the README. -/
theorem C69_date : FindsGroups (str "(\\d+)-(\\d+)-(\\d+)") 3 false
    (fun q x => (fieldsAt digitC q [(digitC, 45), (digitC, 45)] x).map (fun r => (r.1, fun k => r.2[k]?))) := by
  have := C62_records [(.esc 100, 45), (.esc 100, 45)] (.esc 100) (by decide +kernel) (by decide +kernel) (by decide +kernel)
  simp only [List.map_cons, List.map_nil, digit_set] at this
  exact this

private def moreA : Alts := .last false (.cons (.chr 97) .once (.cons (.group true (.last false (.cons (.chr 97) (.star .greedy) (.nil false)))) .once (.nil false)))

/-- The last group, `(b*)`: as many as there are, first. -/
theorem caps_star {q : List Int} {b : Atom} {i : Nat} :
    (caps q (.cons (.group true (.last false (.cons b (.star .greedy) (.nil false)))) .once (.nil false)) i).head? =
      some (i + runLen b.set (q.drop i), [(i, i + runLen b.set (q.drop i))]) := by
  rw [caps_once, loop_picks, List.flatMap_map]
  have hcounts : (Quant.star .greedy).counts (runLen b.set (q.drop i)) = (List.range' 0 (runLen b.set (q.drop i) + 1)).reverse := by
    simp [Quant.counts, Quant.mode, Quant.lo, Quant.top, Quant.hi]
  rw [hcounts]
  generalize runLen b.set (q.drop i) = r
  rw [List.range'_1_concat, List.reverse_append]
  simp [caps, Sq.picks]

/-- **C69.** The first pattern of the README. -/
theorem C69_readme : FindsGroups (str "a(a*)") 1 false letterAndMore := by
  have hr : moreA.capRegular = true := by decide +kernel
  have := C50_groups_partial moreA hr (by decide +kernel) (by decide +kernel)
  refine FindsGroups.congr this (fun q x => ?_)
  have hcap := (sane_facts (regular_sane hr)).1
  rw [bestWay, moreA, ways_at hcap]
  simp only [capsAt, Bool.false_and, Bool.false_eq_true, if_false, List.head?_map, caps_char, letterAndMore]
  split
  · rw [caps_star]
    simp only [Option.map_some]
    refine congrArg some (Prod.ext rfl (funext fun k => ?_))
    simp only [fill, Caps.with, noCaps]
    rfl
  · rfl

/-! ## mail addresses -/

private def nameA : Atom := .cls false [.esc 119, .chr 46, .esc 45] false
private def hostA : Atom := .cls false [.esc 119, .esc 45] false
private def restA : Atom := .cls false [.esc 119, .chr 46] false
private def mail : Alts := .last false (.cons nameA (.plus .greedy) (.cons (.chr 64) .once (.cons hostA (.plus .greedy)
  (.cons (.esc 46) .once (.cons restA (.plus .greedy) (.nil false))))))

theorem plus_counts (r : Nat) : (Quant.plus .greedy).counts r = (List.range' 1 r).reverse := by
  simp [Quant.counts, Quant.mode, Quant.lo, Quant.top, Quant.hi]

theorem picks_loop {q : List Int} {a : Atom} {s : Sq} {i : Nat} (h : ∀ n, n < runLen a.set (q.drop i) → s.picks q (i + n) = []) :
    (Sq.cons a (.plus .greedy) s).picks q i = if 0 < runLen a.set (q.drop i) then s.picks q (i + runLen a.set (q.drop i)) else [] := by
  have := flat_last (lo := 1) (r := runLen a.set (q.drop i)) (f := fun n => s.picks q (i + n)) h
  simp only [Nat.add_sub_cancel] at this
  simp only [Sq.picks, plus_counts, this, Nat.succ_le_iff]

theorem picks_last {q : List Int} {a : Atom} {i : Nat} :
    ((Sq.cons a (.plus .greedy) (.nil false)).picks q i).head? = if 0 < runLen a.set (q.drop i) then some (i + runLen a.set (q.drop i)) else none := by
  simp only [Sq.picks, plus_counts]
  generalize runLen a.set (q.drop i) = r
  cases r with
  | zero => simp
  | succ r =>
    rw [List.range'_1_concat, List.reverse_append]
    simp [Nat.add_comm 1 r]

theorem picks_char {q : List Int} {a : Atom} {c : Int} (h : a.set = fun x => x == c) {s : Sq} {i : Nat} :
    (Sq.cons a .once s).picks q i = if q[i]? = some c then s.picks q (i + 1) else [] := by
  have := run_one c q i
  have e : (Atom.chr c).set = fun x => x == c := rfl
  rw [e] at this
  simp only [Sq.picks, counts_once, h]
  by_cases hc : q[i]? = some c
  · rw [if_pos hc, if_pos (this.2 hc)]; simp
  · rw [if_neg hc, if_neg (fun h => hc (this.1 h))]; simp

theorem run_split (S : Int → Bool) (l : List Int) : l = l.takeWhile S ++ l.drop (runLen S l) ∧ ∀ c, (l.drop (runLen S l)).head? = some c → S c = false := by
  have e : l.drop (runLen S l) = l.dropWhile S := by
    have := List.takeWhile_append_dropWhile (p := S) (l := l)
    rw [runLen]
    generalize l.takeWhile S = a at *
    generalize l.dropWhile S = b at *
    subst this; simp
  rw [e]
  refine ⟨List.takeWhile_append_dropWhile.symm, fun c hc => ?_⟩
  have := List.head?_dropWhile_not S l
  rw [hc] at this
  simpa using this

theorem run_append {S : Int → Bool} {w l : List Int} (h1 : ∀ c ∈ w, S c = true) (h2 : ∀ c, l.head? = some c → S c = false) : runLen S (w ++ l) = w.length := by
  induction w with
  | nil =>
    cases l with
    | nil => rfl
    | cons c l => simp [runLen, h2 c rfl]
  | cons c w ih =>
    have := ih (fun c hc => h1 c (List.mem_cons_of_mem _ hc))
    simp only [runLen] at this ⊢
    simp [h1 c (by simp), this]

private def nameC (c : Int) : Bool := wordC c || c == 46 || c == 45
private def hostC (c : Int) : Bool := wordC c || c == 45
private def restC (c : Int) : Bool := wordC c || c == 46

private theorem name_set : nameA.set = nameC := by
  funext c
  simp only [nameA, nameC, Atom.set, listed, Item.test, List.any_cons, List.any_nil, escape, wordC, digitC]
  rw [Bool.eq_iff_iff]; simp; omega
private theorem host_set : hostA.set = hostC := by
  funext c
  simp only [hostA, hostC, Atom.set, listed, Item.test, List.any_cons, List.any_nil, escape, wordC, digitC]
  rw [Bool.eq_iff_iff]; simp; omega
private theorem rest_set : restA.set = restC := by
  funext c
  simp only [restA, restC, Atom.set, listed, Item.test, List.any_cons, List.any_nil, escape, wordC, digitC]
  rw [Bool.eq_iff_iff]; simp; omega
private theorem dot_set : (Atom.esc 46).set = fun x => x == 46 := by
  funext c; simp [Atom.set, escape]

private def mailAt (q : List Int) (x : Nat) : Option Nat :=
  let y := x + runLen nameC (q.drop x)
  let z := y + 1 + runLen hostC (q.drop (y + 1))
  let w := z + 1 + runLen restC (q.drop (z + 1))
  if x < y ∧ q[y]? = some 64 ∧ y + 1 < z ∧ q[z]? = some 46 ∧ z + 1 < w then some w else none

private theorem mail_best (q : List Int) (x : Nat) : bestAt mail q x = mailAt q x := by
  have inner : ∀ (S : Int → Bool) (c : Int) (i n : Nat), S c = false → n < runLen S (q.drop i) → ¬ q[i + n]? = some c := by
    intro S c i n h hn hc
    have := run_all (S := S) (q := q) (s := i) (Nat.le_refl _) (Nat.le_add_right i n) (by omega) hc
    rw [h] at this; cases this
  simp only [bestAt, mail, Alts.picks, hatPicks, Bool.false_and, Bool.false_eq_true, if_false]
  rw [picks_loop (fun n hn => by rw [picks_char rfl, if_neg]; rw [name_set] at hn; exact inner nameC 64 x n (by decide) hn)]
  rw [name_set, picks_char rfl]
  rw [picks_loop (fun n hn => by rw [picks_char dot_set, if_neg]; rw [host_set] at hn; exact inner hostC 46 _ n (by decide) hn)]
  rw [host_set, picks_char dot_set]
  simp only [mailAt]
  generalize hy : x + runLen nameC (q.drop x) = y
  generalize hz : y + 1 + runLen hostC (q.drop (y + 1)) = z
  have e1 : 0 < runLen nameC (q.drop x) ↔ x < y := by omega
  have e2 : 0 < runLen hostC (q.drop (y + 1)) ↔ y + 1 < z := by omega
  simp only [e1, e2]
  by_cases h1 : x < y
  · by_cases h2 : q[y]? = some 64
    · by_cases h3 : y + 1 < z
      · by_cases h4 : q[z]? = some 46
        · rw [if_pos h1, if_pos h2, if_pos h3, if_pos h4, picks_last, rest_set]
          by_cases h5 : 0 < runLen restC (q.drop (z + 1))
          · rw [if_pos h5, if_pos ⟨h1, h2, h3, h4, by omega⟩]
          · rw [if_neg h5, if_neg (fun h => h5 (by omega))]
        · rw [if_pos h1, if_pos h2, if_pos h3, if_neg h4, if_neg (fun h => h4 h.2.2.2.1)]; rfl
      · rw [if_pos h1, if_pos h2, if_neg h3, if_neg (fun h => h3 h.2.2.1)]; rfl
    · rw [if_pos h1, if_neg h2, if_neg (fun h => h2 h.2.1)]; rfl
  · rw [if_neg h1, if_neg (fun h => h1 h.1)]; rfl

private theorem mail_iff (q : List Int) (x e : Nat) (hx : x ≤ q.length) : mailAt q x = some e ↔ MailAddress q x e := by
  constructor
  · intro h
    simp only [mailAt] at h
    generalize hy : x + runLen nameC (q.drop x) = y at h
    generalize hz : y + 1 + runLen hostC (q.drop (y + 1)) = z at h
    generalize hw : z + 1 + runLen restC (q.drop (z + 1)) = w at h
    split at h
    · rename_i hh
      obtain ⟨h1, h2, h3, h4, h5⟩ := hh
      simp only [Option.some.injEq] at h
      subst h
      have a1 := run_split nameC (q.drop x)
      have a2 := run_split hostC (q.drop (y + 1))
      have a3 := run_split restC (q.drop (z + 1))
      rw [List.drop_drop, hy] at a1
      rw [List.drop_drop, hz] at a2
      rw [List.drop_drop, hw] at a3
      have hwl : w ≤ q.length := by
        have : runLen restC (q.drop (z + 1)) ≤ (q.drop (z + 1)).length := by
          rw [runLen]; exact (List.takeWhile_sublist _).length_le
        have hlt := (List.getElem?_eq_some_iff.1 h4).1
        rw [List.length_drop] at this
        omega
      refine ⟨q.take x, (q.drop x).takeWhile nameC, (q.drop (y + 1)).takeWhile hostC, (q.drop (z + 1)).takeWhile restC, q.drop w, ?_, by simp [hx], ?_, ?_, ?_, ?_, ?_, ?_, ?_, ?_⟩
      · have b1 := drop_at h2
        have b2 := drop_at h4
        rw [b2] at a2; rw [b1] at a1
        have c2 := a2.1; have c1 := a1.1; have c3 := a3.1
        have c0 := (List.take_append_drop x q).symm
        generalize (q.drop x).takeWhile nameC = n1 at *
        generalize (q.drop (y + 1)).takeWhile hostC = n2 at *
        generalize (q.drop (z + 1)).takeWhile restC = n3 at *
        rw [c1, c2, c3] at c0
        simpa using c0
      · simp; omega
      · intro h; rw [runLen, h] at hy; simp at hy; omega
      · intro c hc
        have := List.all_eq_true.1 List.all_takeWhile c hc
        simpa [nameC, or_assoc] using this
      · intro h; rw [runLen, h] at hz; simp at hz; omega
      · intro c hc
        have := List.all_eq_true.1 List.all_takeWhile c hc
        simpa [hostC] using this
      · intro h; rw [runLen, h] at hw; simp at hw; omega
      · intro c hc
        have := List.all_eq_true.1 List.all_takeWhile c hc
        simpa [restC] using this
      · intro c hc
        have := a3.2 c hc
        simp only [restC, Bool.or_eq_false_iff, beq_eq_false_iff_ne] at this
        rintro (h | h)
        · rw [this.1] at h; cases h
        · exact this.2 h
    · cases h
  · rintro ⟨before, name, host, rest, after, hq, hb, he, n1, n2, h1, h2, r1, r2, r3⟩
    have d1 : q.drop x = name ++ (64 :: (host ++ (46 :: (rest ++ after)))) := by rw [hq, ← hb]; simp
    have p1 : runLen nameC (q.drop x) = name.length := by
      rw [d1]
      refine run_append (fun c hc => ?_) (fun c hc => ?_)
      · simpa [nameC, or_assoc] using n2 c hc
      · simp at hc; subst hc; decide
    have d2 : q.drop (x + name.length) = 64 :: (host ++ (46 :: (rest ++ after))) := by rw [← List.drop_drop, d1]; simp
    have d3 : q.drop (x + name.length + 1) = host ++ (46 :: (rest ++ after)) := by rw [← List.drop_drop, d2]; simp
    have p2 : runLen hostC (q.drop (x + name.length + 1)) = host.length := by
      rw [d3]
      refine run_append (fun c hc => ?_) (fun c hc => ?_)
      · simpa [hostC] using h2 c hc
      · simp at hc; subst hc; decide
    have d4 : q.drop (x + name.length + 1 + host.length) = 46 :: (rest ++ after) := by rw [← List.drop_drop, d3]; simp
    have d5 : q.drop (x + name.length + 1 + host.length + 1) = rest ++ after := by rw [← List.drop_drop, d4]; simp
    have p3 : runLen restC (q.drop (x + name.length + 1 + host.length + 1)) = rest.length := by
      rw [d5]
      refine run_append (fun c hc => ?_) (fun c hc => ?_)
      · simpa [restC] using r2 c hc
      · have := r3 c hc
        cases hs : restC c with
        | false => rfl
        | true => exact absurd (by simpa [restC] using hs) this
    have g1 : q[x + name.length]? = some 64 := by rw [← List.head?_drop, d2]; rfl
    have g2 : q[x + name.length + 1 + host.length]? = some 46 := by rw [← List.head?_drop, d4]; rfl
    have l1 := List.length_pos_iff.2 n1
    have l2 := List.length_pos_iff.2 h1
    have l3 := List.length_pos_iff.2 r1
    simp only [mailAt, p1, p2, p3]
    rw [if_pos ⟨by omega, g1, by omega, g2, by omega⟩, he, hq]
    simp; omega

/-- **C69.** The pattern for mail addresses of the benchmark: matching reports the first, a range-for all of them, from left to right, without overlap. -/
theorem C69_mail : ∃ f, (∀ q x e, x ≤ q.length → (f q x = some e ↔ MailAddress q x e)) ∧ FindsAll (str "[\\w.\\-]+@[\\w\\-]+\\.[\\w.]+") f :=
  ⟨mailAt, fun q x e hx => mail_iff q x e hx,
   (C50_find_all_partial mail (by decide +kernel) (by decide +kernel) (by decide +kernel) (by decide +kernel)).congr (fun q x _ => mail_best q x)⟩

private def uri : String := "[\\w]+:\\/\\/[^\\/\\s?#]+[^\\s?#]+(?:\\?[^\\s#]*)?(?:#[^\\s]*)?"

/-- **C69, refutation for the third pattern of the benchmark.** It matches the whole of `a://b/` (as written), and nothing is found there. -/
theorem C69_refuted_uri : (build (str uri)).map (fun b => ends (str "a://b/") (toRx b) 0) = some [6] ∧ m uri "a://b/" = none ∧
    m uri "http://host/x?y#z" = some [some "http://host/x?y#z"] := by decide +kernel

example : m "(\\d+)-(\\d+)-(\\d+)" "on 1970-01-01." = some [some "1970-01-01", some "1970", some "01", some "01"] := by decide +kernel
example : m "a(a*)" "zaaa1" = some [some "aaa", some "aa"] := by decide +kernel
example : m "[\\w.\\-]+@[\\w\\-]+\\.[\\w.]+" "to: a.b@c-d.e.f!" = some [some "a.b@c-d.e.f"] := by decide +kernel

end ERegex.Props

/-
Boolean term construction keeps the meaning.
-/
import Verif.Proofs.TermSem
import Verif.Proofs.Std
import Verif.Model.TermManager

set_option linter.unusedSectionVars false
set_option linter.unusedVariables false
set_option linter.unusedSimpArgs false

namespace Yaga

open Spec TermTable

/-- The result is a Boolean term with the given value, in a table that extends `s`. -/
structure BRes (H : TermHash) (s : TermTable) (r : TermTable × Tm) (f : Interp → Bool) : Prop where
  wf : WF H r.1
  ext : Ext s r.1
  isBool : IsBool r.1 r.2
  val : ∀ I, denB I r.1 r.2 = f I

/-- The result is a real term with the given value, in a table that extends `s`. -/
structure QRes (H : TermHash) (s : TermTable) (r : TermTable × Tm) (f : Interp → ℚ) : Prop where
  wf : WF H r.1
  ext : Ext s r.1
  isReal : IsReal r.1 r.2
  val : ∀ I, denQ I r.1 r.2 = f I

variable {H : TermHash} {s : TermTable}

theorem BRes.same (h : WF H s) {t : Tm} (ht : IsBool s t) {f : Interp → Bool}
    (hf : ∀ I, denB I s t = f I) : BRes H s (s, t) f := ⟨h, Ext.refl s, ht, hf⟩

theorem QRes.same (h : WF H s) {t : Tm} (ht : IsReal s t) {f : Interp → ℚ}
    (hf : ∀ I, denQ I s t = f I) : QRes H s (s, t) f := ⟨h, Ext.refl s, ht, hf⟩

theorem BRes.congr {r : TermTable × Tm} {f g : Interp → Bool} (h : BRes H s r f) (hf : ∀ I, f I = g I) :
    BRes H s r g := ⟨h.wf, h.ext, h.isBool, fun I => (h.val I).trans (hf I)⟩

theorem QRes.congr {r : TermTable × Tm} {f g : Interp → ℚ} (h : QRes H s r f) (hf : ∀ I, f I = g I) :
    QRes H s r g := ⟨h.wf, h.ext, h.isReal, fun I => (h.val I).trans (hf I)⟩

theorem BRes.opp {r : TermTable × Tm} {f : Interp → Bool} (h : BRes H s r f) :
    BRes H s (r.1, r.2.opp) (fun I => !f I) :=
  ⟨h.wf, h.ext, h.isBool.opp, fun I => by show denB I r.1 r.2.opp = _; rw [denB_opp h.wf h.isBool, h.val I]⟩

theorem BRes.of_ext {s0 : TermTable} {r : TermTable × Tm} {f : Interp → Bool} (h0 : Ext s0 s)
    (h : BRes H s r f) : BRes H s0 r f := ⟨h.wf, h0.trans h.ext, h.isBool, h.val⟩

theorem QRes.of_ext {s0 : TermTable} {r : TermTable × Tm} {f : Interp → ℚ} (h0 : Ext s0 s)
    (h : QRes H s r f) : QRes H s0 r f := ⟨h.wf, h0.trans h.ext, h.isReal, h.val⟩

theorem denB_ext {s' : TermTable} (h : Ext s s') {t : Tm} (ht : IsBool s t) (I : Interp) :
    denB I s' t = denB I s t := by
  unfold denB; rw [den_ext h ht.index_lt]

theorem denQ_ext {s' : TermTable} (h : Ext s s') {t : Tm} (ht : IsReal s t) (I : Interp) :
    denQ I s' t = denQ I s t := by
  unfold denQ; rw [den_ext h ht.index_lt]

theorem any_denB_ext {s' : TermTable} (h : Ext s s') {as : List Tm} (hb : ∀ a ∈ as, IsBool s a)
    (I : Interp) : as.any (denB I s') = as.any (denB I s) := by
  induction as with
  | nil => rfl
  | cons a as ih =>
    rw [List.any_cons, List.any_cons, denB_ext h (hb a (by simp)), ih fun b hb' => hb b (by simp [hb'])]

theorem orTerm_res (h : WF H s) {as : List Tm} (hl : 2 ≤ as.length ∧ ∀ a ∈ as, a.index ≠ 1)
    (hb : ∀ a ∈ as, IsBool s a) :
    BRes H s (s.orTerm H as) (fun I => as.any (denB I s)) := by
  obtain ⟨h1, h2, h3, h4⟩ := composite_wf (k := .or) (ty := .bool) (as := as) h (by decide)
    ⟨rfl, as, rfl, hl, hb⟩
  refine ⟨h1, h2, type_of_entry h3, fun I => ?_⟩
  show denB I (s.composite H .or .bool as).1 (s.composite H .or .bool as).2 = _
  rw [← any_denB_ext h2 hb]
  unfold denB
  rw [h1.den h3 h4]
  rfl

theorem index_ne_one {x : Tm} (h1 : x ≠ Tm.tt) (h2 : x ≠ Tm.ff) : x.index ≠ 1 := by
  intro h
  obtain ⟨x⟩ := x
  simp only [Tm.index, Tm.tt, Tm.ff, ne_eq, Tm.mk.injEq] at *
  omega

theorem mkBinaryOr_res (h : WF H s) {x y : Tm} (hx : IsBool s x) (hy : IsBool s y) :
    BRes H s (s.mkBinaryOr H x y) (fun I => denB I s x || denB I s y) := by
  unfold mkBinaryOr
  by_cases h1 : x = y
  · rw [if_pos h1]; subst h1
    exact BRes.same h hx fun I => by simp
  rw [if_neg h1]
  by_cases h2 : x = Tm.tt
  · rw [if_pos h2]; subst h2
    exact BRes.same h hx fun I => by rw [h.denB_tt]; simp
  rw [if_neg h2]
  by_cases h3 : y = Tm.tt
  · rw [if_pos h3]; subst h3
    exact BRes.same h hy fun I => by rw [h.denB_tt]; simp
  rw [if_neg h3]
  by_cases h4 : x = Tm.ff
  · rw [if_pos h4]; subst h4
    exact BRes.same h hy fun I => by rw [h.denB_ff]; simp
  rw [if_neg h4]
  by_cases h5 : y = Tm.ff
  · rw [if_pos h5]; subst h5
    exact BRes.same h hx fun I => by rw [h.denB_ff]; simp
  rw [if_neg h5]
  by_cases h6 : x.opp = y
  · rw [if_pos h6]; subst h6
    exact BRes.same h h.tt_bool fun I => by rw [denB_opp h hx, h.denB_tt]; simp
  rw [if_neg h6]
  by_cases h7 : Tm.lt y x
  · rw [if_pos h7]
    refine (orTerm_res h (as := [y, x]) ⟨by simp, ?_⟩ ?_).congr fun I => by simp [Bool.or_comm]
    · intro a ha
      simp only [List.mem_cons, List.not_mem_nil, or_false] at ha
      rcases ha with rfl | rfl
      exacts [index_ne_one h3 h5, index_ne_one h2 h4]
    intro a ha
    simp only [List.mem_cons, List.not_mem_nil, or_false] at ha
    rcases ha with rfl | rfl
    exacts [hy, hx]
  · rw [if_neg h7]
    refine (orTerm_res h (as := [x, y]) ⟨by simp, ?_⟩ ?_).congr fun I => by simp
    · intro a ha
      simp only [List.mem_cons, List.not_mem_nil, or_false] at ha
      rcases ha with rfl | rfl
      exacts [index_ne_one h2 h4, index_ne_one h3 h5]
    intro a ha
    simp only [List.mem_cons, List.not_mem_nil, or_false] at ha
    rcases ha with rfl | rfl
    exacts [hx, hy]

theorem mkBinaryAnd_res (h : WF H s) {x y : Tm} (hx : IsBool s x) (hy : IsBool s y) :
    BRes H s (s.mkBinaryAnd H x y) (fun I => denB I s x && denB I s y) := by
  refine (mkBinaryOr_res h hx.opp hy.opp).opp.congr fun I => ?_
  rw [denB_opp h hx, denB_opp h hy]
  cases denB I s x <;> cases denB I s y <;> rfl

theorem mkImplies_res (h : WF H s) {x y : Tm} (hx : IsBool s x) (hy : IsBool s y) :
    BRes H s (s.mkImplies H x y) (fun I => !denB I s x || denB I s y) := by
  refine (mkBinaryOr_res h hx.opp hy).congr fun I => ?_
  rw [denB_opp h hx]

theorem mkIff_res (h : WF H s) {x y : Tm} (hx : IsBool s x) (hy : IsBool s y) :
    BRes H s (s.mkIff H x y) (fun I => denB I s x == denB I s y) := by
  have h1 := mkImplies_res h hx hy
  have h2 := mkImplies_res h1.wf (hy.ext h1.ext) (hx.ext h1.ext)
  have h3 := mkBinaryAnd_res h2.wf (h1.isBool.ext h2.ext) h2.isBool
  refine (h3.of_ext (h1.ext.trans h2.ext)).congr fun I => ?_
  rw [h2.val, denB_ext h2.ext h1.isBool, h1.val, denB_ext h1.ext hx, denB_ext h1.ext hy]
  cases denB I s x <;> cases denB I s y <;> rfl

theorem mkXor_res (h : WF H s) {x y : Tm} (hx : IsBool s x) (hy : IsBool s y) :
    BRes H s (s.mkXor H x y) (fun I => xor (denB I s x) (denB I s y)) := by
  have h1 := mkBinaryOr_res h hx hy
  have h2 := mkBinaryAnd_res h1.wf (hx.ext h1.ext) (hy.ext h1.ext)
  have h3 := mkBinaryAnd_res h2.wf (h1.isBool.ext h2.ext) h2.isBool.opp
  refine (h3.of_ext (h1.ext.trans h2.ext)).congr fun I => ?_
  rw [denB_opp h2.wf h2.isBool, h2.val, denB_ext h2.ext h1.isBool, h1.val, denB_ext h1.ext hx,
    denB_ext h1.ext hy]
  cases denB I s x <;> cases denB I s y <;> rfl

theorem mkBoolIteGeneral_res (h : WF H s) {c t e : Tm} (hc : IsBool s c) (ht : IsBool s t)
    (he : IsBool s e) :
    BRes H s (s.mkBoolIteGeneral H c t e) (fun I => if denB I s c then denB I s t else denB I s e) := by
  have main : ∀ {c t e : Tm}, IsBool s c → IsBool s t → IsBool s e →
      BRes H s (((s.mkImplies H c t).1.mkImplies H c.opp e).1.mkBinaryAnd H (s.mkImplies H c t).2
        ((s.mkImplies H c t).1.mkImplies H c.opp e).2)
        (fun I => if denB I s c then denB I s t else denB I s e) := by
    intro c t e hc ht he
    have h1 := mkImplies_res h hc ht
    have h2 := mkImplies_res h1.wf (hc.ext h1.ext).opp (he.ext h1.ext)
    have h3 := mkBinaryAnd_res h2.wf (h1.isBool.ext h2.ext) h2.isBool
    refine (h3.of_ext (h1.ext.trans h2.ext)).congr fun I => ?_
    rw [h2.val, denB_ext h2.ext h1.isBool, h1.val, denB_opp h1.wf (hc.ext h1.ext), denB_ext h1.ext hc,
      denB_ext h1.ext he]
    cases denB I s c <;> cases denB I s t <;> cases denB I s e <;> rfl
  unfold mkBoolIteGeneral
  cases hn : c.isNeg with
  | false => simpa only [hn, Bool.false_eq_true, if_false] using main hc ht he
  | true =>
    have := main hc.opp he ht
    simp only [hn, if_true] at this ⊢
    refine this.congr fun I => ?_
    rw [denB_opp h hc]
    cases denB I s c <;> rfl

theorem mkBoolIte_res (h : WF H s) {c t e : Tm} (hc : IsBool s c) (ht : IsBool s t) (he : IsBool s e) :
    BRes H s (s.mkBoolIte H c t e) (fun I => if denB I s c then denB I s t else denB I s e) := by
  unfold mkBoolIte
  by_cases h1 : t = e
  · rw [if_pos h1]; subst h1
    exact BRes.same h ht fun I => by simp
  rw [if_neg h1]
  by_cases h2 : c = Tm.tt
  · rw [if_pos h2]; subst h2
    exact BRes.same h ht fun I => by rw [h.denB_tt]; simp
  rw [if_neg h2]
  by_cases h3 : c = Tm.ff
  · rw [if_pos h3]; subst h3
    exact BRes.same h he fun I => by rw [h.denB_ff]; simp
  rw [if_neg h3]
  by_cases h4 : t = e.opp
  · rw [if_pos h4]
    refine (mkIff_res h hc ht).congr fun I => ?_
    rw [h4, denB_opp h he]
    cases denB I s c <;> cases denB I s e <;> rfl
  rw [if_neg h4]
  by_cases h5 : c = t
  · rw [if_pos h5]
    refine (mkBinaryOr_res h ht he).congr fun I => ?_
    rw [h5]
    cases denB I s t <;> rfl
  rw [if_neg h5]
  by_cases h6 : c = e
  · rw [if_pos h6]
    refine (mkBinaryAnd_res h he ht).congr fun I => ?_
    rw [h6]
    cases denB I s e <;> rfl
  rw [if_neg h6]
  by_cases h7 : c = t.opp
  · rw [if_pos h7]
    refine (mkBinaryAnd_res h ht he).congr fun I => ?_
    rw [h7, denB_opp h ht]
    cases denB I s t <;> rfl
  rw [if_neg h7]
  by_cases h8 : c = e.opp
  · rw [if_pos h8]
    refine (mkBinaryOr_res h he ht).congr fun I => ?_
    rw [h8, denB_opp h he]
    cases denB I s e <;> rfl
  rw [if_neg h8]
  by_cases h9 : t = Tm.tt
  · rw [if_pos h9]
    refine (mkBinaryOr_res h hc he).congr fun I => ?_
    rw [h9, h.denB_tt]
    cases denB I s c <;> rfl
  rw [if_neg h9]
  by_cases h10 : t = Tm.ff
  · rw [if_pos h10]
    refine (mkBinaryAnd_res h hc.opp he).congr fun I => ?_
    rw [h10, h.denB_ff, denB_opp h hc]
    cases denB I s c <;> rfl
  rw [if_neg h10]
  by_cases h11 : e = Tm.ff
  · rw [if_pos h11]
    refine (mkBinaryAnd_res h hc ht).congr fun I => ?_
    rw [h11, h.denB_ff]
    cases denB I s c <;> rfl
  rw [if_neg h11]
  by_cases h12 : e = Tm.tt
  · rw [if_pos h12]
    refine (mkBinaryOr_res h hc.opp ht).congr fun I => ?_
    rw [h12, h.denB_tt, denB_opp h hc]
    cases denB I s c <;> rfl
  rw [if_neg h12]
  exact mkBoolIteGeneral_res h hc ht he

/-- The loop of `mk_or`. -/
theorem orLoop_spec (h : WF H s) (cs : List Tm) (prev : Tm) (acc : List Tm)
    (hinv : (acc = [] ∧ prev = Tm.ff) ∨ acc.getLast? = some prev)
    (hcs : ∀ a ∈ cs, IsBool s a) (hacc : ∀ a ∈ acc, IsBool s a) :
    match orLoop cs prev acc with
    | none => ∀ I, (acc.any (denB I s) || cs.any (denB I s)) = true
    | some (acc', prev') =>
      ((acc' = [] ∧ prev' = Tm.ff) ∨ acc'.getLast? = some prev') ∧ (∀ a ∈ acc', IsBool s a) ∧
      ∀ I, acc'.any (denB I s) = (acc.any (denB I s) || cs.any (denB I s)) := by
  induction cs generalizing prev acc with
  | nil => exact ⟨hinv, hacc, fun I => by simp⟩
  | cons c cs ih =>
    have hc := hcs c (by simp)
    have hcs' : ∀ a ∈ cs, IsBool s a := fun a ha => hcs a (by simp [ha])
    unfold orLoop
    by_cases h1 : prev ≠ c
    · rw [if_pos h1]
      by_cases h2 : c = prev.opp
      · rw [if_pos h2]
        intro I
        rw [List.any_cons]
        rcases hinv with ⟨_, hp⟩ | hp
        · rw [hp] at h2
          have : c = Tm.tt := h2
          rw [this, h.denB_tt]; simp
        · have hm := List.mem_of_getLast? hp
          have hpb := hacc prev hm
          rw [h2, denB_opp h hpb]
          cases hv : denB I s prev with
          | false => simp
          | true =>
            have : acc.any (denB I s) = true := List.any_eq_true.mpr ⟨prev, hm, hv⟩
            rw [this]; rfl
      · rw [if_neg h2]
        have := ih c (acc ++ [c]) (Or.inr (by simp)) hcs' (by
          intro a ha
          rcases List.mem_append.mp ha with ha | ha
          · exact hacc a ha
          · simp only [List.mem_singleton] at ha; rw [ha]; exact hc)
        cases ho : orLoop cs c (acc ++ [c]) with
        | none =>
          rw [ho] at this
          intro I
          have := this I
          rw [List.any_append] at this
          simpa [Bool.or_assoc] using this
        | some p =>
          rw [ho] at this
          obtain ⟨g1, g2, g3⟩ := this
          refine ⟨g1, g2, fun I => ?_⟩
          rw [g3 I, List.any_append]
          simp [Bool.or_assoc]
    · rw [if_neg h1]
      have h1 : prev = c := not_not.mp h1
      have hcov : ∀ I, denB I s c = true → acc.any (denB I s) = true := by
        intro I hv
        rcases hinv with ⟨_, hp⟩ | hp
        · rw [← h1, hp, h.denB_ff] at hv; cases hv
        · exact List.any_eq_true.mpr ⟨prev, List.mem_of_getLast? hp, by rw [h1]; exact hv⟩
      have hsame : ∀ I, (acc.any (denB I s) || (c :: cs).any (denB I s)) =
          (acc.any (denB I s) || cs.any (denB I s)) := by
        intro I
        rw [List.any_cons]
        cases hv : denB I s c with
        | false => simp
        | true => rw [hcov I hv]; simp
      have := ih prev acc hinv hcs' hacc
      cases ho : orLoop cs prev acc with
      | none => rw [ho] at this; intro I; rw [hsame]; exact this I
      | some p =>
        rw [ho] at this
        obtain ⟨g1, g2, g3⟩ := this
        exact ⟨g1, g2, fun I => by rw [hsame]; exact g3 I⟩

theorem sortTm_pairwise (as : List Tm) : (sortBy Tm.lt as).Pairwise fun a b => a.x ≤ b.x := by
  refine (sortBy_pairwise (lt := Tm.lt) ?_ ?_ as).imp ?_ <;> simp only [Tm.lt, decide_eq_false_iff_not,
    decide_eq_true_eq] <;> intros <;> omega

/-- The constants do not occur in the list of arguments that is left. -/
theorem orLoop_noconst : ∀ (cs : List Tm) (prev : Tm) (acc : List Tm),
    (prev = Tm.ff ∨ 4 ≤ prev.x) → (∀ a ∈ acc, 4 ≤ a.x) →
    (prev :: cs).Pairwise (fun a b => a.x ≤ b.x) →
    ∀ p, orLoop cs prev acc = some p → ∀ a ∈ p.1, 4 ≤ a.x := by
  intro cs
  induction cs with
  | nil => intro prev acc _ h2 _ p hp; cases hp; exact h2
  | cons c cs ih =>
    intro prev acc h1 h2 h3 p hp
    have hpc : prev.x ≤ c.x := (List.pairwise_cons.mp h3).1 c (by simp)
    have h4 : (c :: cs).Pairwise (fun a b : Tm => a.x ≤ b.x) := (List.pairwise_cons.mp h3).2
    unfold orLoop at hp
    by_cases he : prev = c
    · rw [if_neg (by simp [he])] at hp
      exact ih prev acc h1 h2 (by rw [he]; exact h4) p hp
    · rw [if_pos he] at hp
      have hc : 4 ≤ c.x := by
        rcases h1 with h1 | h1
        · have : prev.x ≠ c.x := by
            intro hx; apply he
            obtain ⟨a⟩ := prev; obtain ⟨b⟩ := c
            simp only at hx; rw [hx]
          have : prev.x = 3 := by rw [h1]; rfl
          omega
        · omega
      split at hp
      · cases hp
      · refine ih c (acc ++ [c]) (.inr hc) ?_ h4 p hp
        intro a ha
        rcases List.mem_append.mp ha with ha | ha
        · exact h2 a ha
        · rw [List.mem_singleton.mp ha]; exact hc

theorem any_sortBy (p : Tm → Bool) (as : List Tm) : (sortBy Tm.lt as).any p = as.any p := by
  apply Bool.eq_iff_iff.mpr
  simp only [List.any_eq_true, mem_sortBy]

theorem mkOr_res (h : WF H s) {as : List Tm} (hb : ∀ a ∈ as, IsBool s a) :
    BRes H s (s.mkOr H as) (fun I => as.any (denB I s)) := by
  have hb' : ∀ a ∈ sortBy Tm.lt as, IsBool s a := fun a ha => hb a ((mem_sortBy _ _ _).mp ha)
  suffices hs : BRes H s (s.mkOr H as) (fun I => (sortBy Tm.lt as).any (denB I s)) from
    hs.congr fun I => any_sortBy _ _
  unfold mkOr
  have hso : (sortBy Tm.lt as).Pairwise fun a b => a.x ≤ b.x :=
    sortTm_pairwise as
  generalize sortBy Tm.lt as = l at hb' hso
  match l, hb', hso with
  | [], _, _ => exact BRes.same h h.ff_bool fun I => by rw [h.denB_ff]; rfl
  | first :: rest, hb', hso =>
    have hf := hb' first (by simp)
    have hr : ∀ a ∈ rest, IsBool s a := fun a ha => hb' a (by simp [ha])
    simp only
    by_cases h1 : first = Tm.tt
    · rw [if_pos h1]
      exact BRes.same h h.tt_bool fun I => by rw [h1, List.any_cons, h.denB_tt]; simp
    rw [if_neg h1]
    have := orLoop_spec h rest first (if first = Tm.ff then [] else [first])
      (by split
          · rename_i hff; exact Or.inl ⟨rfl, hff⟩
          · exact Or.inr rfl)
      hr
      (by split
          · intro a ha; cases ha
          · intro a ha; simp only [List.mem_singleton] at ha; rw [ha]; exact hf)
    have hacc : ∀ I, ((if first = Tm.ff then [] else [first]).any (denB I s) || rest.any (denB I s)) =
        (first :: rest).any (denB I s) := by
      intro I
      split
      · rename_i hff; rw [List.any_cons, hff, h.denB_ff]; simp
      · simp
    cases ho : orLoop rest first (if first = Tm.ff then [] else [first]) with
    | none =>
      rw [ho] at this
      exact BRes.same h h.tt_bool fun I => by rw [h.denB_tt, ← hacc I]; exact (this I).symm
    | some p =>
      obtain ⟨acc, prev⟩ := p
      rw [ho] at this
      obtain ⟨g1, g2, g3⟩ := this
      simp only
      split
      · rename_i hl
        rcases g1 with ⟨ha, hp⟩ | hp
        · rw [hp]
          refine BRes.same h h.ff_bool fun I => ?_
          rw [h.denB_ff, ← hacc I, ← g3 I, ha]; rfl
        · match acc, hl, hp, g2, g3 with
          | [x], _, hp, g2, g3 =>
            simp only [List.getLast?_singleton, Option.some.injEq] at hp
            subst hp
            refine BRes.same h (g2 x (by simp)) fun I => ?_
            rw [← hacc I, ← g3 I]; simp
          | [], _, hp, _, _ => cases hp
          | _ :: _ :: _, hl, _, _, _ => simp at hl
      · rename_i hl
        have hge : first = Tm.ff ∨ 4 ≤ first.x := by
          by_cases hff : first = Tm.ff
          · exact .inl hff
          · refine .inr ?_
            have h0 : first.index ≠ 0 := by
              intro h0
              obtain ⟨e, he, hty⟩ := entry_of_type (s := s) (t := first) (by rw [hf]; decide)
              rw [hf] at hty
              have := h.zero_null
              unfold entry at he
              rw [h0, this] at he
              cases he; cases hty
            have h2 := index_ne_one h1 hff
            simp only [Tm.index] at h0 h2
            omega
        have hno := orLoop_noconst rest first _ hge (by
          intro a ha
          split at ha
          · cases ha
          · rename_i hff
            rw [List.mem_singleton.mp ha]
            exact hge.resolve_left hff) hso _ ho
        refine (orTerm_res h ⟨by omega, fun a ha => ?_⟩ g2).congr fun I => by rw [g3 I, hacc I]
        have := hno a ha; simp only [Tm.index]; omega

theorem mkAnd_res (h : WF H s) {as : List Tm} (hb : ∀ a ∈ as, IsBool s a) :
    BRes H s (s.mkAnd H as) (fun I => as.all (denB I s)) := by
  have hb' : ∀ a ∈ as.map Tm.opp, IsBool s a := by
    intro a ha
    obtain ⟨b, hm, rfl⟩ := List.mem_map.mp ha
    exact (hb b hm).opp
  refine (mkOr_res h hb').opp.congr fun I => ?_
  rw [List.any_map]
  induction as with
  | nil => rfl
  | cons a as ih =>
    have := ih (fun b hm => hb b (by simp [hm])) (fun b hm => hb' b (by
      simp only [List.map_cons, List.mem_cons]; exact Or.inr hm))
    rw [List.any_cons, List.all_cons, ← this]
    simp only [Function.comp_apply]
    rw [denB_opp h (hb a (by simp))]
    cases denB I s a <;> simp

end Yaga

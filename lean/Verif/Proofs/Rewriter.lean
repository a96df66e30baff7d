/-
What the rewriter does, and the values of terms without the bound constants.
-/
import Verif.Model.Rewriter
import Verif.Spec.Subst
import Verif.Proofs.TermOps

namespace Yaga

open Spec TermTable

variable {H : TermHash}

/-- The first argument of a term differs from it. -/
theorem args_ne {s : TermTable} (h : WF H s) {t a : Tm} (ha : a ∈ s.args t) : a ≠ t := by
  have ha' : a ∈ s.allArgs t := by
    unfold TermTable.args at ha
    split at ha
    · exact List.mem_of_mem_drop ha
    · exact ha
  unfold TermTable.allArgs TermTable.descr at ha'
  cases he : s.entry t with
  | none => rw [he] at ha'; cases ha'
  | some e =>
    rw [he] at ha'
    have := h.below t.index e he a ha'
    rintro rfl
    omega

/-- Only the root is rewritten. -/
theorem rewriteLoop_root (cfg : TermTable → Tm → Tm) (s : TermTable) (root : Tm) (n : Nat) :
    ∀ (k fuel : Nat), k + n = (s.args root).length →
    rewriteLoop H cfg (fuel + 2 + n) ⟨s, [], [], [(root, k)]⟩ =
      if cfg s root = root then some ⟨s, [], [root], []⟩
      else if s.type root = s.type (cfg s root) then some ⟨s, [(root, cfg s root)], [root], []⟩ else none := by
  induction n with
  | zero =>
    intro k fuel hk
    rw [rewriteLoop]
    simp only [List.not_mem_nil, if_false]
    rw [dif_neg (by omega)]
    have e1 : ((s.args root).any fun c => (substFind [] c).isSome) = false := by
      rw [List.any_eq_false]
      intro c _
      simp [substFind]
    rw [e1]
    simp only [Bool.false_eq_true, if_false, Option.bind_some, or_false, ne_eq, ite_not, List.nil_append]
    split
    · rfl
    · rfl
  | succ n ih =>
    intro k fuel hk
    rw [show fuel + 2 + (n + 1) = (fuel + 2 + n) + 1 by omega, rewriteLoop]
    simp only [List.not_mem_nil, if_false]
    rw [dif_pos (by omega)]
    exact ih (k + 1) fuel (by omega)

theorem rewriteTerm_root (cfg : TermTable → Tm → Tm) (s : TermTable) (root : Tm) (fuel : Nat)
    (hf : (s.args root).length + 2 ≤ fuel) :
    rewriteTerm H cfg fuel s root =
      if cfg s root = root then some (s, root)
      else if s.type root = s.type (cfg s root) then some (s, cfg s root) else none := by
  unfold rewriteTerm
  have := rewriteLoop_root (H := H) cfg s root (s.args root).length 0 (fuel - (s.args root).length - 2) (by omega)
  rw [show fuel - (s.args root).length - 2 + 2 + (s.args root).length = fuel by omega] at this
  rw [this]
  split
  · simp [substFind]
  · split
    · simp [substFind]
    · rfl

/-- The value of a term is the same in two interpretations that differ only in constants that do not occur
in the term. -/
theorem den_congr_occurs {s : TermTable} (h : WF H s) (I : Interp) (vals : List (Tm × Val)) :
    ∀ (n : Nat) (t : Tm), t.index = n → (∀ p ∈ vals, ¬ OccursIn s p.1 t) →
      den (I.bind vals) s t = den I s t := by
  intro n
  induction n using Nat.strong_induction_on with
  | _ n ih =>
    intro t hn ho
    suffices hp : ∀ u : Tm, u.isNeg = false → u.index = t.index → den (I.bind vals) s u = den I s u by
      cases hng : t.isNeg with
      | false => exact hp t hng rfl
      | true =>
        have := hp t.opp (by rw [Tm.opp_isNeg, hng]; rfl) (Tm.opp_index t)
        rw [den_opp, den_opp] at this
        have inj : ∀ a b : Val, a.not = b.not → a = b := by
          intro a b
          cases a <;> cases b <;> simp [Val.not]
        exact inj _ _ this
    intro u hu hi
    cases he : s.entry u with
    | none =>
      have hlen : s.terms.length ≤ u.index := List.getElem?_eq_none_iff.mp he
      unfold den lookup
      rw [List.getD_eq_default _ _ (by rw [valsOf_length]; exact hlen),
        List.getD_eq_default _ _ (by rw [valsOf_length]; exact hlen)]
    | some e =>
      rw [h.den he hu, h.den he hu]
      have hargs : ∀ a ∈ argsOf e, den (I.bind vals) s a = den I s a := by
        intro a ha
        have hlt := h.below u.index e he a ha
        refine ih a.index (by omega) a rfl fun p hpv hocc => ho p hpv ?_
        refine .arg (a := a) ?_ hocc
        unfold TermTable.allArgs TermTable.descr
        have he' : s.entry t = some e := by unfold TermTable.entry at he ⊢; rw [← hi]; exact he
        rw [he']
        exact ha
      rw [evalEntry_congr hargs]
      have hc : (vals.find? fun p => p.1.index == u.index) = none := by
        rw [List.find?_eq_none]
        intro p hpv hx
        exact ho p hpv (.here (by rw [← hi]; exact (beq_iff_eq.mp hx).symm))
      unfold evalEntry Interp.bind
      simp only [hc, Option.map_none, Option.getD_none]

end Yaga

/-
C05: learned clauses are implied.
-/
import Verif.Proofs.AnalysisExample

namespace Yaga
open Spec
variable {R : Type}

/-- C05. Whatever clause `analyze` returns is a logical consequence of the conflict clause and of
the reason clauses recorded in the trail. The only assumption on the trail is that no reason
contains the literal its own variable makes false (a reason contains the literal it propagated, and
its other literals belong to other variables). -/
theorem C05_learned_clause_implied (deref : R → Clause) (t : Trail R) (conflict c : Clause)
    (lvl : Int) (h : analyze deref t conflict = some (c, lvl))
    (hno : ∀ i, ∀ a ∈ t.assigned i, ∀ r, a.reason = some r →
      Lit.ofVal a.var.ord (!t.bools.value a.var.ord) ∉ deref r)
    (σ : Assignment) (hc : clauseTrue σ conflict)
    (hr : ∀ i, ∀ a ∈ t.assigned i, ∀ r, a.reason = some r → clauseTrue σ (deref r)) :
    clauseTrue σ c := by
  simp only [analyze, Option.bind_eq_some_iff] at h
  obtain ⟨c0, h0, h1⟩ := h
  obtain ⟨hok, hmem⟩ := init_ok h0
  have := loop_entails deref t σ (t.assigned c0.topLevel).reverse
    (fun a ha => hno _ a (List.mem_reverse.1 ha)) (fun a ha => hr _ a (List.mem_reverse.1 ha))
    c0 hok (by obtain ⟨l, hl, hlt⟩ := hc; exact ⟨l, (hmem l).2 hl, hlt⟩)
  obtain ⟨l, hl, hlt⟩ := this
  exact ⟨l, (finish_mem h1 l).2 hl, hlt⟩

/-- C05 for a trail whose reasons are well formed: the learned clause follows from any clause set
that entails the conflict and contains the reasons. -/
theorem C05_learned_clause_entailed (deref : R → Clause) (t : Trail R) (hi : t.Inv)
    (hro : ReasonsOk deref t) (cs : List Clause) (conflict c : Clause) (lvl : Int)
    (h : analyze deref t conflict = some (c, lvl)) (hcs : Entails cs conflict)
    (hrs : ∀ v r, t.reason v = some r → Entails cs (deref r)) : Entails cs c := by
  intro σ hσ
  have hlist : ∀ i, ∀ a ∈ t.assigned i, t.reason a.var = a.reason := by
    intro i a ha
    simp only [Trail.assigned, List.getD_eq_getElem?_getD] at ha
    rcases hx : t.levels[i]? with _ | xs
    · rw [hx] at ha; simp at ha
    · rw [hx] at ha
      obtain ⟨_, _, _, h⟩ := hi.listed i xs a hx ha; exact h
  refine C05_learned_clause_implied deref t conflict c lvl h ?_ σ (hcs σ hσ) ?_
  · intro i a ha r har hm
    have hre : t.reason a.var = some r := (hlist i a ha).trans har
    have hne : Lit.ofVal a.var.ord (!t.bools.value a.var.ord) ≠ trueLit t a.var := by
      intro e
      have := congrArg Lit.isNeg e
      cases hv : t.bools.value a.var.ord <;> simp [trueLit, hv] at this
    obtain ⟨-, lw, lv, h1, h2, h3⟩ := hro.others _ _ hre _ hm hne
    have hvar : (Lit.ofVal a.var.ord (!t.bools.value a.var.ord)).var = a.var := by
      have hb := hro.isBool _ _ hre
      rcases hv : a.var with ⟨ty, o⟩
      rw [hv] at hb; simp only at hb; subst hb
      simp [Lit.var]
    rw [hvar] at h1 h3
    rw [h1] at h2; cases h2
    rcases h3 with h3 | ⟨-, xs, a', ys, e1, e2, b, hb, e3⟩
    · omega
    · obtain ⟨zs, hz, -⟩ := hi.own _ _ h1
      have hnd := hi.nodup _ _ hz
      simp only [Trail.assigned, List.getD_eq_getElem?_getD, hz, Option.getD_some] at e1
      rw [e1, List.map_append, List.nodup_append] at hnd
      exact hnd.2.2 b.var (List.mem_map_of_mem hb) a'.var (by simp) (by rw [e3, e2])
  · intro i a ha r har
    exact hrs a.var r ((hlist i a ha).trans har) σ hσ

/-- The hypotheses hold for a trail with two decisions and two propagations, and the analysis
resolves both propagations away. -/

example : analyze id Example.t4 Example.conflict =
    some ([(Lit.pos 2).neg, (Lit.pos 0).neg], 1) := by decide

example : Entails [Example.conflict, Example.r3, Example.r4] [(Lit.pos 2).neg, (Lit.pos 0).neg] :=
  C05_learned_clause_entailed id Example.t4 Example.t4_inv Example.t4_reasons _ Example.conflict _ 1
    (by decide) (fun σ h => h _ (by simp))
    (by
      intro v r hv σ h
      simp only [Example.t4, Trail.reason_setValue, Trail.propagate, Function.update_apply,
        Example.t3, Example.t2, Example.t1, Trail.decide, Example.t0_reason] at hv
      split at hv
      · cases hv; exact h _ (by simp)
      · split at hv
        · cases hv; exact h _ (by simp)
        · simp at hv)

#print axioms C05_learned_clause_implied
#print axioms C05_learned_clause_entailed

end Yaga

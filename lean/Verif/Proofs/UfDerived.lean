/-
What the plugin for uninterpreted functions asks of the plugin for linear arithmetic.
-/
import Verif.Proofs.UfLinear
import Verif.Model.LraPluginHistory

set_option linter.unusedSimpArgs false

namespace Yaga

open Spec TermTable Internalizer

variable {H : TermHash} {s : TermTable} {st : IState} {R : Type}

/-! ### The variables of a difference -/

theorem polyArgs_atoms : ∀ (as : List Tm), (∀ a ∈ as, Mono s a) → ∀ {p p' : UPoly}, polyArgs s st as p = some p' →
    ∃ ts, p'.terms = p.terms ++ ts ∧
      List.Forall₂ (fun x q => mapFind st.ratVars x = some q.1) (as.flatMap (monoAtoms s)) ts := by
  intro as
  induction as with
  | nil =>
    intro _ p p' h
    simp only [polyArgs, Option.some.injEq] at h
    exact ⟨[], by rw [h]; simp, .nil⟩
  | cons a as ih =>
    intro hm p p' h
    have ih := fun {p p'} => ih (fun b hb => hm b (by simp [hb])) (p := p) (p' := p')
    rw [polyArgs] at h
    rw [List.flatMap_cons]
    rcases hm a (by simp) with ⟨hneg, q, he⟩ | ht | ⟨hneg, c, y, q, he, hc, hce, hy, hyv⟩
    · rw [kind_of_entry he] at h
      rw [monoAtoms_const he]
      exact ih (p := ⟨p.terms, s.constValue a⟩) h
    · rw [monoAtoms_var ht.2]
      cases hv : mapFind st.ratVars a with
      | none => rw [hv] at h; rcases ht.2 with hk | hk | hk <;> rw [hk] at h <;> cases h
      | some v =>
        rw [hv] at h
        have h : polyArgs s st as ⟨p.terms ++ [(v, 1)], p.const⟩ = some p' := by
          rcases ht.2 with hk | hk | hk <;> rw [hk] at h <;> exact h
        obtain ⟨ts, h1, h2⟩ := ih h
        exact ⟨(v, 1) :: ts, by rw [h1]; simp, .cons hv h2⟩
    · obtain ⟨g1, g2, g3⟩ := product_of_entry he hce
      rw [g1] at h
      simp only [g2] at h
      rw [monoAtoms_product he hce]
      cases hv : mapFind st.ratVars y with
      | none => rw [hv] at h; cases h
      | some v =>
        rw [hv] at h
        obtain ⟨ts, h1, h2⟩ := ih h
        exact ⟨(v, _) :: ts, by rw [h1]; simp; rfl, .cons hv h2⟩

/-- The polynomial of a term has a monomial for each of its variables. -/
theorem poly_atoms (h : WF H s) {t : Tm} (ht : IsReal s t) {ip : UPoly} (hp : poly s st t = some ip) :
    List.Forall₂ (fun x q => mapFind st.ratVars x = some q.1) (atoms s t) ip.terms := by
  unfold poly at hp
  rcases mono_cases h ht with ⟨hm, hk⟩ | ⟨as, p, he, _, _, _, hm⟩
  · rw [atoms_mono hk]
    rcases hm with ⟨hneg, q, he⟩ | ht | ⟨hneg, c, y, q, he, hc, hce, hy, hyv⟩
    · rw [kind_of_entry he] at hp
      simp only [Option.some.injEq] at hp
      subst hp
      rw [monoAtoms_const he]
      exact .nil
    · rw [monoAtoms_var ht.2]
      have hp' : (mapFind st.ratVars t).map (fun v => (⟨[(v, 1)], 0⟩ : UPoly)) = some ip := by
        rcases ht.2 with hv | hv | hv <;> rw [hv] at hp <;> exact hp
      obtain ⟨v, hv, rfl⟩ := Option.map_eq_some_iff.mp hp'
      exact .cons hv .nil
    · obtain ⟨g1, g2, g3⟩ := product_of_entry he hce
      rw [g1] at hp
      simp only [g2] at hp
      rw [monoAtoms_product he hce]
      obtain ⟨v, hv, rfl⟩ := Option.map_eq_some_iff.mp hp
      exact .cons hv .nil
  · rw [kind_of_entry he] at hp
    simp only at hp
    rw [args_of_entry he (by simp)] at hp
    obtain ⟨ts, h1, h2⟩ := polyArgs_atoms as hm hp
    rw [atoms_poly he, h1]
    exact h2

theorem addTerm_nil_iff {p q : Nat × ℚ} : UPoly.addTerm [p] q ≠ [] → p.1 = q.1 → UPoly.addTerm [p] q = [(p.1, p.2 + q.2)] := by
  intro h1 h2
  unfold UPoly.addTerm at h1 ⊢
  rw [if_pos h2] at h1 ⊢
  split
  · rename_i h; rw [if_pos h] at h1; exact absurd rfl h1
  · rfl

/-- The difference of two terms with at most one variable each has their variables, unless it is constant. -/
theorem sub_vars {p q : UPoly} (hp : p.terms.length ≤ 1) (hq : q.terms.length ≤ 1) (h : (p.sub q).terms ≠ []) :
    (∀ x ∈ p.terms, x.1 ∈ (p.sub q).terms.map (·.1)) ∧ ∀ x ∈ q.terms, x.1 ∈ (p.sub q).terms.map (·.1) := by
  obtain ⟨pt, pc⟩ := p
  obtain ⟨qt, qc⟩ := q
  unfold UPoly.sub UPoly.add at h ⊢
  simp only at hp hq h ⊢
  rcases pt with _ | ⟨a, _ | ⟨b, pt⟩⟩
  · rcases qt with _ | ⟨c, _ | ⟨d, qt⟩⟩
    · simp
    · simp [UPoly.addTerm]
    · simp at hq
  · rcases qt with _ | ⟨c, _ | ⟨d, qt⟩⟩
    · simp
    · simp only [List.map_cons, List.map_nil, List.foldl_cons, List.foldl_nil, List.mem_singleton] at h ⊢
      by_cases he : a.1 = c.1
      · rw [addTerm_nil_iff h he]
        simp [he]
      · have : UPoly.addTerm [a] (c.1, c.2 * -1) = [a, (c.1, c.2 * -1)] := by
          unfold UPoly.addTerm
          rw [if_neg he]; rfl
        rw [this]
        simp
    · simp at hq
  · simp at hp

/-! ### Constraints made for conflicts -/

namespace UF

/-- The terms of a constraint that a plugin derives from assigned variables. -/
structure Side (la : LA R) (ts : List (Nat × ℚ)) : Prop where
  nodup : (ts.map (·.1)).Nodup
  nz : ∃ q ∈ ts, q.2 ≠ 0
  all : ∀ q ∈ ts, q.2 ≠ 0
  asg : ∀ q ∈ ts, (la.level q.1).isSome = true
  srt : ts.Pairwise fun a b => la.sortLevel b.1 ≤ la.sortLevel a.1

/-- The effect of the equalities asserted by the plugin: each makes a constraint over assigned variables and
assigns its literal, if it is not assigned, the value it has. The level is the one of the compared terms; if
`N` holds, it is the level of a variable of the constraint. -/
inductive Derived (hv : Nat → Nat) (hc : ℚ → Nat) (N : Prop) : LA R → LA R → Prop where
  | refl (la : LA R) : Derived hv hc N la la
  | found {la la1 : LA R} (h : Derived hv hc N la la1) (ts : List (Nat × ℚ)) (rhs : ℚ) (hs : Side la1 ts)
      (hd : (la1.constraint hv hc ts .eq rhs).1.trail.bools.defined
        (la1.constraint hv hc ts .eq rhs).2.lit.ord = true) :
      Derived hv hc N la (la1.constraint hv hc ts .eq rhs).1
  | assign {la la1 : LA R} (h : Derived hv hc N la la1) (ts : List (Nat × ℚ)) (rhs : ℚ) (hs : Side la1 ts)
      (hd : (la1.constraint hv hc ts .eq rhs).1.trail.bools.defined
        (la1.constraint hv hc ts .eq rhs).2.lit.ord = false) (b : Bool) (lvl : Nat)
      (hb : b = true ↔ LinTrue la1.trail.rats.value ts .eq rhs)
      (hle : ∀ q ∈ ts, ∀ k, la1.level q.1 = some k → k ≤ lvl)
      (hN : N → ∃ q ∈ ts, la1.level q.1 = some lvl) :
      Derived hv hc N la ((la1.constraint hv hc ts .eq rhs).1.setBool
        (la1.constraint hv hc ts .eq rhs).2.lit.ord b none lvl)

theorem Derived.trans {hv : Nat → Nat} {hc : ℚ → Nat} {N : Prop} {a b c : LA R} (h1 : Derived hv hc N a b)
    (h2 : Derived hv hc N b c) : Derived hv hc N a c := by
  induction h2 with
  | refl => exact h1
  | found _ ts rhs hs hd ih => exact .found ih ts rhs hs hd
  | assign _ ts rhs hs hd b lvl hb hle hN ih => exact .assign ih ts rhs hs hd b lvl hb hle hN

/-- The plugin changes the other components only by asserting equalities. -/
structure Calls (cfg : ICfg) (N : Prop) (u u' : UF R) : Prop where
  derived : Derived cfg.hv cfg.hc N u.lra u'.lra
  ist : u'.ist = { u.ist with store := u'.ist.store, numBool := u'.ist.numBool }

theorem Calls.refl (cfg : ICfg) (N : Prop) (u : UF R) : Calls cfg N u u := ⟨.refl _, rfl⟩

theorem Calls.trans {cfg : ICfg} {N : Prop} {u v w : UF R} (h1 : Calls cfg N u v) (h2 : Calls cfg N v w) :
    Calls cfg N u w := by
  refine ⟨h1.derived.trans h2.derived, ?_⟩
  rw [h2.ist, h1.ist]

theorem linear_lra {cfg : ICfg} {u u' : UF R} {ts : List (Nat × ℚ)} {pred : Pred} {rhs : ℚ} {l : Lit}
    (h : linear cfg u ts pred rhs = some (u', l)) :
    u'.lra = (u.lra.constraint cfg.hv cfg.hc ts pred rhs).1 ∧
      l = (u.lra.constraint cfg.hv cfg.hc ts pred rhs).2.lit ∧
      u'.ist = { u.ist with store := u'.ist.store, numBool := u'.ist.numBool } := by
  unfold linear at h
  split at h
  · cases h
  simp only at h
  split at h
  · cases h
  simp only [Option.some.injEq, Prod.mk.injEq] at h
  obtain ⟨rfl, rfl⟩ := h
  refine ⟨?_, rfl, rfl⟩
  unfold lra LA.constraint
  simp only
  split <;> rfl

end UF
end Yaga

/-
C13: unit propagation is sound.
-/
import Verif.Proofs.BoolExample
import Verif.Proofs.Subsumption

namespace Yaga
open Spec BS

/-- C13. After any history of calls, if `propagate` ends then: it only permuted literals inside
clauses; variables that had a value keep it, with level and reason; every variable that got a value
is boolean, got it at the current decision level, and its reason is a clause of the database that
starts with the literal that became true and whose other literals are false and were false before;
and a conflict is a clause of the database that is false in the trail. -/
theorem C13_propagation_sound {b : Bool} {s s' : BS} {conflict : Option Clause} (hist : AnyHist b s)
    (h : Propagates s conflict s') :
    (s'.cls.length = s.cls.length ∧ ∀ r, (s'.clause r).Perm (s.clause r)) ∧
    (∀ v k, s.t.level v = some k → s'.t.level v = some k ∧ s'.t.reason v = s.t.reason v ∧
      s'.t.valueOf v = s.t.valueOf v) ∧
    (∀ v k, s.t.level v = none → s'.t.level v = some k →
      v.type = .boolean ∧ k = s.t.decisionLevel ∧ ∃ r rest, r < s'.cls.length ∧
        s'.t.reason v = some r ∧ s'.clause r = trueLit s'.t v :: rest ∧
        ∀ m ∈ rest, evalLit s'.t.bools m = some false ∧ Before s'.t m.var v) ∧
    (∀ c, conflict = some c → (∃ r < s'.cls.length, s'.clause r = c) ∧
      ∀ l ∈ c, evalLit s'.t.bools l = some false) := by
  have hb := anyHist_base hist
  obtain ⟨s0, a1, a2, -, -, -, -, -, hx, -, -, -, -, b5⟩ := propagates_spec (Q := fun _ => False)
    hb.inv hb.db (fun h => hb.ws (Or.inr h)) (by simp) (by simp) h
  have hcl : s0.clause = s.clause := by funext r; simp [clause, a1]
  refine ⟨⟨by rw [hx.cls.len, a1], fun r => by rw [← hcl]; exact hx.cls.perm r⟩, ?_, ?_, ?_⟩
  · intro v k hv
    have := hx.old v k (by rw [a2]; exact hv)
    rw [a2] at this; exact this
  · intro v k hv hk
    obtain ⟨h1, h2, r, rest, h3, h4, h5, h6, -⟩ := hx.new v k (by rw [a2]; exact hv) hk
    rw [a2] at h2
    exact ⟨h1, h2, r, rest, h3, h4, h5, h6⟩
  · intro c hc; obtain ⟨h1, h2⟩ := b5 c hc; exact ⟨h2, h1⟩

/-- C13 (meaning). Every assignment that satisfies the database and agrees with the trail before
the call also agrees with the values added by the call; if the call reports a conflict, there is no
such assignment. -/
theorem C13_propagation_implied {b : Bool} {s s' : BS} {conflict : Option Clause}
    (hist : AnyHist b s) (h : Propagates s conflict s') (σ : Assignment) (hσ : allTrue σ s.cls)
    (hag : ∀ n k, s.t.level (.bool n) = some k → σ n = s.t.bools.value n) :
    (∀ n k, s'.t.level (.bool n) = some k → σ n = s'.t.bools.value n) ∧ conflict = none := by
  have hb := anyHist_base hist
  obtain ⟨⟨hlen, hperm⟩, hold, hnew, hconf⟩ := C13_propagation_sound hist h
  obtain ⟨s0, -, -, -, -, -, -, -, -, hi, -⟩ := propagates_spec (Q := fun _ => False)
    hb.inv hb.db (fun h => hb.ws (Or.inr h)) (by simp) (by simp) h
  have hcl : ∀ r < s'.cls.length, clauseTrue σ (s'.clause r) := by
    intro r hr
    rw [hlen] at hr
    have hm : s.clause r ∈ s.cls := by
      simp [clause, List.getD_eq_getElem?_getD, List.getElem?_eq_getElem hr]
    obtain ⟨l, hl, ht⟩ := hσ _ hm
    exact ⟨l, (hperm r).mem_iff.2 hl, ht⟩
  have key : ∀ v : Var, v.type = .boolean → ∀ k, s'.t.level v = some k →
      σ v.ord = s'.t.bools.value v.ord := by
    intro v
    refine before_induction hi (P := fun v => v.type = .boolean → ∀ k, s'.t.level v = some k →
      σ v.ord = s'.t.bools.value v.ord) ?_ v
    rintro ⟨ty, n⟩ ih hty k hk
    simp only at hty; subst hty
    rcases h0 : s.t.level (.bool n) with _ | k0
    · obtain ⟨-, -, r, rest, h3, h4, h5, h6⟩ := hnew _ _ h0 hk
      obtain ⟨l, hl, ht⟩ := hcl r h3
      rw [h5] at hl
      rcases List.mem_cons.1 hl with rfl | hl
      · rcases hv : s'.t.bools.value n <;> simp [trueLit, litTrue, hv] at ht ⊢ <;> exact ht
      · exfalso
        obtain ⟨g1, g2⟩ := h6 l hl
        obtain ⟨j, hj⟩ := false_level hi g1
        have := ih _ g2 rfl j hj
        rw [evalLit_false_iff] at g1
        obtain ⟨g3, g4⟩ := g1
        have hn : l.isNeg = s'.t.bools.value l.ord := by
          have := congrArg Lit.isNeg g4
          simpa using this
        simp only [Lit.var, litTrue, hn] at this ht
        rw [this] at ht
        rcases hv : s'.t.bools.value l.ord <;> simp [hv] at ht
    · have h1 := (hold _ _ h0).2.2
      simp only [Trail.valueOf, Val.b.injEq] at h1
      rw [h1]
      exact hag n k0 h0
  refine ⟨fun n k hk => key (.bool n) rfl k hk, ?_⟩
  rcases conflict with _ | c
  · rfl
  · exfalso
    obtain ⟨⟨r, hr, rfl⟩, hf⟩ := hconf c rfl
    obtain ⟨l, hl, ht⟩ := hcl r hr
    have g1 := hf l hl
    obtain ⟨j, hj⟩ := false_level hi g1
    have := key l.var rfl j hj
    rw [evalLit_false_iff] at g1
    obtain ⟨g3, g4⟩ := g1
    have hn : l.isNeg = s'.t.bools.value l.ord := by
      have := congrArg Lit.isNeg g4
      simpa using this
    simp only [Lit.var, litTrue, hn] at this ht
    rw [this] at ht
    rcases hv : s'.t.bools.value l.ord <;> simp [hv] at ht

/-- Not vacuous: a unit clause and a chain of implications; then a decision and a conflict. -/
example : ∃ s', Propagates Ex.s0 none s' ∧ s'.t.level (.bool 1) = some 0 ∧
    s'.t.reason (.bool 1) = some 1 := ⟨_, Ex.s0_s1, by decide, by decide⟩

example := C13_propagation_sound Ex.s2_any Ex.s2_s3
example := C13_propagation_implied Ex.s0_start Ex.s0_s1

#print axioms C13_propagation_sound
#print axioms C13_propagation_implied

end Yaga

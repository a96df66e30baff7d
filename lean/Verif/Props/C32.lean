/-
C32: bound queries see only live bounds and return the tightest.
-/
import Verif.Proofs.LraExample
import Verif.Proofs.LraLive

namespace Yaga
open Spec

theorem better_upper_iff (l r : Bnd) : Bnd.isBetter Bnd.ubLess l r = true ↔
    l.value < r.value ∨ l.value = r.value ∧ l.isStrict = true ∧ r.isStrict = false := by
  unfold Bnd.isBetter Bnd.ubLess
  by_cases h1 : l.value < r.value
  · simp [h1]
  · by_cases h2 : l.value = r.value <;> simp [h1, h2]

theorem better_lower_iff (l r : Bnd) : Bnd.isBetter Bnd.lbLess l r = true ↔
    r.value < l.value ∨ l.value = r.value ∧ l.isStrict = true ∧ r.isStrict = false := by
  unfold Bnd.isBetter Bnd.lbLess
  by_cases h1 : r.value < l.value
  · simp [h1]
  · by_cases h2 : l.value = r.value <;> simp [h1, h2]

/-- C32. A bound returned by a query was recorded earlier by `update` or `deduce`. In every state `t`
between then and the query (`u'` is the state right after the bound was recorded), all literals of
constraints it was derived from are assigned, with the value they have now, and all rational variables
whose values were used are assigned, with the value they have now. -/
theorem C32_live (hv : Nat → Nat) (hc : ℚ → Nat) (st : Lra.St) (h : Lra.Reach hv hc st) (x : Nat)
    (b : Bnd) (hq : ((st.bnd.vb x).upper st.store st.models).2 = some b ∨
      ((st.bnd.vb x).lower st.store st.models).2 = some b) :
    ∃ (u : Lra.St) (op : Lra.Op), Lra.Reach hv hc u ∧ op.Ok u ∧
      (∃ c, op = .update c ∨ op = .deduce c) ∧ Lra.Steps hv hc (op.run hv hc u) st ∧
      (b ∈ ((op.run hv hc u).bnd.vb x).ub ∧ b ∉ (u.bnd.vb x).ub ∨
        b ∈ ((op.run hv hc u).bnd.vb x).lb ∧ b ∉ (u.bnd.vb x).lb) ∧
      ∀ t, Lra.Steps hv hc (op.run hv hc u) t → Lra.Steps hv hc t st →
        b.isObsolete t.store t.models = false ∧
        (∀ o, UsesLit o b → t.models.bools.defined o = true ∧ st.models.bools.defined o = true ∧
          st.models.bools.value o = t.models.bools.value o) ∧
        ∀ y, UsesVar st.store y b → t.models.rats.defined y = true ∧
          st.models.rats.defined y = true ∧ st.models.rats.value y = t.models.rats.value y := by
  have key : ∀ up, (Lra.query st.store st.models st.bnd up x).2 = some b →
      ∃ (u : Lra.St) (op : Lra.Op), Lra.Reach hv hc u ∧ op.Ok u ∧
      (∃ c, op = .update c ∨ op = .deduce c) ∧ Lra.Steps hv hc (op.run hv hc u) st ∧
      (b ∈ Lra.stk (op.run hv hc u).bnd up x ∧ b ∉ Lra.stk u.bnd up x) ∧
      ∀ t, Lra.Steps hv hc (op.run hv hc u) t → Lra.Steps hv hc t st →
        b.isObsolete t.store t.models = false ∧
        (∀ o, UsesLit o b → t.models.bools.defined o = true ∧ st.models.bools.defined o = true ∧
          st.models.bools.value o = t.models.bools.value o) ∧
        ∀ y, UsesVar st.store y b → t.models.rats.defined y = true ∧
          st.models.rats.defined y = true ∧ st.models.rats.value y = t.models.rats.value y := by
    intro up hq
    obtain ⟨hm, _, hl⟩ := Lra.query_some hq
    obtain ⟨u, op, h1, h2, h3, h4, h5, h6⟩ := Lra.birth h hm
    refine ⟨u, op, h1, h2, h6, h3, ⟨h5, h4⟩, fun t ht hts => ?_⟩
    have hI1 := (Lra.reach_linv h1).op hv hc h2
    have hI2 := Lra.steps_linv hv hc hI1 ht
    obtain ⟨hK, hM⟩ := Lra.steps_env hI2 hts
    obtain ⟨hK1, hM1⟩ := Lra.steps_env hI1 ht
    have hI3 := Lra.reach_linv h
    have hg := (hI1.good up x b h5).mono hI1.inv hI2.inv hK1 hM1 (fun _ _ _ he _ => he)
    exact ⟨obsolete_mono hI2.inv hI3.inv hK hM hg hl,
      Lra.live_unchanged hI2.inv hI3.inv hK hM hg hl⟩
  rcases hq with hq | hq
  · obtain ⟨u, op, a1, a2, a3, a4, a5, a6⟩ := key true hq
    exact ⟨u, op, a1, a2, a3, a4, Or.inl a5, a6⟩
  · obtain ⟨u, op, a1, a2, a3, a4, a5, a6⟩ := key false hq
    exact ⟨u, op, a1, a2, a3, a4, Or.inr a5, a6⟩

/-- C32, the converse: a recorded bound becomes obsolete only when backtracking retracts the literal of
a constraint it was derived from or the value of a variable that was used. -/
theorem C32_obsolete_only_by_backtracking (hv : Nat → Nat) (hc : ℚ → Nat) (st : Lra.St)
    (h : Lra.Reach hv hc st) (op : Lra.Op) (ok : op.Ok st) (x : Nat) (b : Bnd)
    (hb : b ∈ (st.bnd.vb x).ub ∨ b ∈ (st.bnd.vb x).lb)
    (hl : b.isObsolete st.store st.models = false)
    (ho : b.isObsolete (op.run hv hc st).store (op.run hv hc st).models = true) :
    (∃ o, op = .clearBool o ∧ UsesLit o b) ∨ ∃ y, op = .clearRat y ∧ UsesVar st.store y b := by
  rcases hb with hb | hb
  · exact Lra.op_obsolete hv hc (Lra.reach_linv h) (Lra.reach_rdom h) ok
      ((Lra.reach_linv h).good true x b hb) hl ho
  · exact Lra.op_obsolete hv hc (Lra.reach_linv h) (Lra.reach_rdom h) ok
      ((Lra.reach_linv h).good false x b hb) hl ho

/-- C32. If an upper bound was recorded in an earlier state and is live, then the query returns an upper
bound that is at least as tight. -/
theorem C32_upper_tightest (hv : Nat → Nat) (hc : ℚ → Nat) (u st : Lra.St) (hu : Lra.Reach hv hc u)
    (hs : Lra.Steps hv hc u st) (x : Nat) (b : Bnd) (hb : b ∈ (u.bnd.vb x).ub)
    (hl : b.isObsolete st.store st.models = false) :
    ∃ r, ((st.bnd.vb x).upper st.store st.models).2 = some r ∧
      (r.value < b.value ∨ r.value = b.value ∧ (b.isStrict = true → r.isStrict = true)) := by
  have hI := Lra.reach_linv hu
  have hm := (Lra.steps_keep hI hs (up := true) hb hl).2
  obtain ⟨r, hr, hor⟩ := Lra.query_best (Lra.steps_linv hv hc hI hs) hm hl
  refine ⟨r, hr, ?_⟩
  rcases hor with e | hbet
  · subst e; exact Or.inr ⟨rfl, id⟩
  · replace hbet := (better_upper_iff _ _).mp hbet
    rcases hbet with h | h
    · exact Or.inl h
    · exact Or.inr ⟨h.1, fun _ => h.2.1⟩

/-- C32. The same for lower bounds. -/
theorem C32_lower_tightest (hv : Nat → Nat) (hc : ℚ → Nat) (u st : Lra.St) (hu : Lra.Reach hv hc u)
    (hs : Lra.Steps hv hc u st) (x : Nat) (b : Bnd) (hb : b ∈ (u.bnd.vb x).lb)
    (hl : b.isObsolete st.store st.models = false) :
    ∃ r, ((st.bnd.vb x).lower st.store st.models).2 = some r ∧
      (b.value < r.value ∨ r.value = b.value ∧ (b.isStrict = true → r.isStrict = true)) := by
  have hI := Lra.reach_linv hu
  have hm := (Lra.steps_keep hI hs (up := false) hb hl).2
  obtain ⟨r, hr, hor⟩ := Lra.query_best (Lra.steps_linv hv hc hI hs) hm hl
  refine ⟨r, hr, ?_⟩
  rcases hor with e | hbet
  · subst e; exact Or.inr ⟨rfl, id⟩
  · replace hbet := (better_lower_iff _ _).mp hbet
    rcases hbet with h | h
    · exact Or.inl h
    · exact Or.inr ⟨h.1, fun _ => h.2.1⟩

/-- C32, bounds that were offered but not recorded because a bound at least as tight was there. As long
as that bound `t` stays live, later queries return a bound at least as tight as the offered one. What is
missing: if `t` becomes obsolete first, the offered bound is lost (`C32_rejected_lost`). -/
theorem C32_offered_partial (hv : Nat → Nat) (hc : ℚ → Nat) (u st : Lra.St) (hu : Lra.Reach hv hc u)
    (hs : Lra.Steps hv hc u st) (x : Nat) (v : Bnd) :
    (((u.bnd.vb x).addUpper u.store u.models v).2 = false →
      ∃ t, ((u.bnd.vb x).upper u.store u.models).2 = some t ∧
        (t.isObsolete st.store st.models = false →
          ∃ r, ((st.bnd.vb x).upper st.store st.models).2 = some r ∧
            (r.value < v.value ∨ r.value = v.value ∧ (v.isStrict = true → r.isStrict = true)))) ∧
    (((u.bnd.vb x).addLower u.store u.models v).2 = false →
      ∃ t, ((u.bnd.vb x).lower u.store u.models).2 = some t ∧
        (t.isObsolete st.store st.models = false →
          ∃ r, ((st.bnd.vb x).lower st.store st.models).2 = some r ∧
            (v.value < r.value ∨ r.value = v.value ∧ (v.isStrict = true → r.isStrict = true)))) := by
  constructor
  · intro hf
    unfold VBounds.addUpper at hf
    simp only at hf
    split at hf
    · cases hf
    · rename_i hn
      cases e : ((u.bnd.vb x).upper u.store u.models).2 with
      | none => rw [e] at hn; exact absurd rfl hn
      | some t =>
        rw [e] at hn
        refine ⟨t, rfl, fun hl => ?_⟩
        have hb : t ∈ (u.bnd.vb x).ub :=
          (Lra.query_some (up := true) (b := u.bnd) (x := x) e).1
        obtain ⟨r, hr, hor⟩ := C32_upper_tightest hv hc u st hu hs x t hb hl
        refine ⟨r, hr, ?_⟩
        rw [Option.all_some, better_upper_iff, not_or, not_lt] at hn
        obtain ⟨n1, n2⟩ := hn
        rcases hor with hlt | ⟨he, hst⟩
        · exact Or.inl (lt_of_lt_of_le hlt n1)
        · rcases lt_or_eq_of_le n1 with h | h
          · exact Or.inl (by rw [he]; exact h)
          · refine Or.inr ⟨by rw [he, h], fun hv => hst ?_⟩
            by_contra hns
            exact n2 ⟨h.symm, hv, by simpa using hns⟩
  · intro hf
    unfold VBounds.addLower at hf
    simp only at hf
    split at hf
    · cases hf
    · rename_i hn
      cases e : ((u.bnd.vb x).lower u.store u.models).2 with
      | none => rw [e] at hn; exact absurd rfl hn
      | some t =>
        rw [e] at hn
        refine ⟨t, rfl, fun hl => ?_⟩
        have hb : t ∈ (u.bnd.vb x).lb :=
          (Lra.query_some (up := false) (b := u.bnd) (x := x) e).1
        obtain ⟨r, hr, hor⟩ := C32_lower_tightest hv hc u st hu hs x t hb hl
        refine ⟨r, hr, ?_⟩
        rw [Option.all_some, better_lower_iff, not_or, not_lt] at hn
        obtain ⟨n1, n2⟩ := hn
        rcases hor with hlt | ⟨he, hst⟩
        · exact Or.inl (lt_of_le_of_lt n1 hlt)
        · rcases lt_or_eq_of_le n1 with h | h
          · exact Or.inl (by rw [he]; exact h)
          · refine Or.inr ⟨by rw [he, h], fun hv => hst ?_⟩
            by_contra hns
            exact n2 ⟨h, hv, by simpa using hns⟩

/-- `x₀ ≤ 3` and `x₀ ≤ 5`, both are true; the bounds are recorded in this order. -/
def exOffered : List (Lra.St → Lra.Op) :=
  [fun _ => .resizeRat 1, fun _ => .constraint [(0, 1)] .leq 3, fun _ => .constraint [(0, 1)] .leq 5,
    fun _ => .setBool 0 true, fun _ => .setBool 1 true, fun st => .update (st.store.get 0),
    fun st => .update (st.store.get 1)]

/-- C32, the class does not return the tightest of the live bounds that were ever offered. With `x₀ ≤ 3`
and then `x₀ ≤ 5` the second bound is dropped. When `x₀ ≤ 3` is retracted there is no bound, although the
literal of `x₀ ≤ 5` is still true and its bound would be live. (The solver hands literals that stay on the
trail to the theory again after backtracking.) -/
theorem C32_rejected_lost :
    ∃ (st : Lra.St) (c : LinCons), Lra.Reach id (fun _ => 0) st ∧
      (∃ u, Lra.Reach id (fun _ => 0) u ∧
        Lra.Steps id (fun _ => 0) ((Lra.Op.update c).run id (fun _ => 0) u) st) ∧
      IsCons st.store c ∧ st.store.terms c = [(0, 1)] ∧ c.pred = .leq ∧ c.lit.isNeg = false ∧
      c.rhs = 5 ∧ evalLit st.models.bools c.lit = some true ∧
      (Bnd.make st.store st.models 0 5 c []).isObsolete st.store st.models = false ∧
      ((st.bnd.vb 0).upper st.store st.models).2.isNone = true := by
  have h1 : Lra.Reach id (fun _ => 0) (Lra.after (exOffered.take 6)) :=
    Lra.reach_after (by decide +kernel)
  have h2 := Lra.Steps.step (.update ((Lra.after (exOffered.take 6)).store.get 1)) h1
    (Lra.ok_of_okB (by decide +kernel))
  refine ⟨_, (Lra.after (exOffered.take 6)).store.get 1, Lra.Steps.step (.clearBool 0) h2 trivial,
    ⟨_, h1, Lra.Steps.step (.clearBool 0) (Lra.Steps.refl _) trivial⟩, by decide +kernel,
    by decide +kernel, by decide +kernel, by decide +kernel, by decide +kernel, by decide +kernel,
    by decide +kernel, by decide +kernel⟩

/-- The chain `x₀ ≤ x₁ ≤ x₂ < 5` gives a live upper bound of `x₀`, so `C32_live` applies. -/
example : ∃ b, (((Lra.after Lra.exChain).bnd.vb 0).upper (Lra.after Lra.exChain).store
    (Lra.after Lra.exChain).models).2 = some b ∧ UsesLit 2 b := by
  obtain ⟨b, hb⟩ : ∃ b, (((Lra.after Lra.exChain).bnd.vb 0).upper (Lra.after Lra.exChain).store
      (Lra.after Lra.exChain).models).2 = some b := Option.isSome_iff_exists.mp (by decide +kernel)
  have key : ((((Lra.after Lra.exChain).bnd.vb 0).upper (Lra.after Lra.exChain).store
      (Lra.after Lra.exChain).models).2.all fun b =>
        b.deps.any fun d => d.deps.any fun e => decide (e.reason.lit.ord = 2)) = true := by
    decide +kernel
  rw [hb] at key
  simp only [Option.all_some, List.any_eq_true, decide_eq_true_eq] at key
  obtain ⟨d, hd, e, he, ho⟩ := key
  exact ⟨b, hb, .dep b d hd (.dep d e he (.reason e ho))⟩

#print axioms C32_live
#print axioms C32_obsolete_only_by_backtracking
#print axioms C32_upper_tightest
#print axioms C32_lower_tightest
#print axioms C32_offered_partial
#print axioms C32_rejected_lost

end Yaga

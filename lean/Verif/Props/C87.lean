/-
C87: the operations on polynomials compute the right coefficients, keep the normal form, and stay inside of their storage.
-/
import Verif.Proofs.PolyMemory

namespace Yaga

open Spec APoly

/-- `merge` on normal polynomials, with any contents of the temporary storage: no access is outside of the storage and no
assertion fails. The result is normal and its coefficients are `p + c * q`. The hook for added variables is called once for
each variable that the polynomial gains, in increasing order, and the hook for removed variables once for each variable that it
loses. -/
theorem C87_merge {p q : APoly} {c : ℚ} (tmp : APoly) (hp : NormalPoly p) (hq : NormalPoly q) (hc : c ≠ 0) :
    ∃ r s, mergeMem p q c tmp = some (r, s) ∧ NormalPoly r ∧
      (∀ v, coeffOf r v = coeffOf p v + c * coeffOf q v) ∧
      s.added.Sublist (varsOfPoly q) ∧ s.removed.Sublist (varsOfPoly p) ∧
      s.added.Nodup ∧ s.removed.Nodup ∧
      (∀ v, v ∈ s.added ↔ coeffOf p v = 0 ∧ coeffOf r v ≠ 0) ∧
      ∀ v, v ∈ s.removed ↔ coeffOf p v ≠ 0 ∧ coeffOf r v = 0 := by
  have hp' := normal_iff.1 hp
  have hq' := normal_iff.1 hq
  have nodup : ∀ {p : APoly}, PolyOK p → (varsOfPoly p).Nodup := by
    intro p h
    refine List.pairwise_map.2 (h.1.imp fun {a b} hab e => ?_)
    rw [e, varLt_irrefl] at hab
    cases hab
  obtain ⟨s, A, R, h1, w, a1, a2, a3, b3, a4, a5, a6⟩ := mergeSteps_spec c (p.length + q.length + 1) p q
    (s := ⟨if tmp.length < p.length + q.length
      then tmp ++ List.replicate (p.length + q.length - tmp.length) (none, 0) else tmp, 0, [], []⟩) hp' hq' (by omega) (by
        show 0 + p.length + q.length ≤ List.length (if _ then _ else _)
        split
        · rw [List.length_append, List.length_replicate]; omega
        · omega)
  have hout : s.tmp.take s.idx = APoly.merge p q c := by
    rw [w.out]; simp [APoly.merge]
  have hr : PolyOK (APoly.merge p q c) := merge_ok hc hp' hq'
  have hadd : s.added = A := by rw [w.added]; rfl
  have hrem : s.removed = R := by rw [w.removed]; rfl
  refine ⟨APoly.merge p q c, s, ?_, normal_iff.2 hr, ?_, ?_, ?_, ?_, ?_, ?_, ?_⟩
  · unfold mergeMem
    simp only
    rw [h1, Option.bind_some, moveBack_spec w.fits, hout]
    rfl
  · exact fun v => mergeLoop_coeff c _ p q (by omega) v
  · exact hadd ▸ a1
  · exact hrem ▸ a2
  · exact hadd ▸ (nodup hq').sublist a1
  · exact hrem ▸ (nodup hp').sublist a2
  · intro v
    rw [hadd, ← mem_vars_iff hr]
    constructor
    · exact fun hv => ⟨coeffOf_notMem (a3 v hv), a4 v hv⟩
    · rintro ⟨h0, hv⟩
      exact (a5 v hv).resolve_left fun hm => (mem_vars_iff hp').1 hm h0
  · intro v
    rw [hrem, ← mem_vars_iff hp']
    constructor
    · exact fun hv => ⟨a2.subset hv, coeffOf_notMem (b3 v hv)⟩
    · rintro ⟨hv, h0⟩
      exact (a6 v hv).resolve_left fun hm => (mem_vars_iff hr).1 hm h0

/-- `add_term` for a variable that does not occur and a coefficient other than 0. The assertion fails exactly for a variable
that occurs. -/
theorem C87_add_term {p : APoly} (hp : NormalPoly p) (v : Option Tm) (c : ℚ) :
    (p.addTermC v c = none ↔ coeffOf p v ≠ 0) ∧
      ∀ r, p.addTermC v c = some r → (c ≠ 0 → NormalPoly r) ∧ ∀ w, coeffOf r w = if w = v then c else coeffOf p w := by
  have hp' := normal_iff.1 hp
  have hcon : p.contains v = true ↔ coeffOf p v ≠ 0 := by
    rw [← mem_vars_iff hp', APoly.contains, Option.isSome_iff_ne_none, Ne, findTerm_none, not_not]
  refine ⟨?_, ?_⟩
  · rw [← hcon, addTermC]
    split <;> simp [*]
  · intro r h
    rw [addTermC] at h
    split at h
    · cases h
    · rename_i hn
      cases h
      have h0 : v ∉ varsOfPoly p := by
        rw [mem_vars_iff hp', ← hcon]; exact hn
      refine ⟨fun hc => normal_iff.2 (addTerm_ok hp' h0 hc), fun w => ?_⟩
      rw [addTerm_coeff]
      by_cases e : w = v
      · rw [if_pos e.symm, if_pos e, e, coeffOf_notMem h0, zero_add]
      · rw [if_neg (Ne.symm e), if_neg e, add_zero]

/-- `get_coeff` and `remove_var`. They fail exactly for a variable that does not occur. -/
theorem C87_get_remove {p : APoly} (hp : NormalPoly p) (v : Option Tm) :
    (p.getCoeff v = if coeffOf p v = 0 then none else some (coeffOf p v)) ∧
      (p.removeVar v = none ↔ coeffOf p v = 0) ∧
      ∀ r c, p.removeVar v = some (r, c) → c = coeffOf p v ∧ NormalPoly r ∧
        ∀ w, coeffOf r w = if w = v then 0 else coeffOf p w := by
  have hp' := normal_iff.1 hp
  cases hf : p.findTerm v with
  | none =>
    have h0 : coeffOf p v = 0 := coeffOf_notMem (findTerm_none.1 hf)
    simp [getCoeff, removeVar, hf, h0]
  | some m =>
    obtain ⟨hm, rfl⟩ := findTerm_some hf
    have hc := coeffOf_mem hp' hm
    have h0 : coeffOf p m.1 ≠ 0 := hc ▸ hp'.nonzero m hm
    refine ⟨by rw [if_neg h0, getCoeff, hf, hc]; rfl, ?_, ?_⟩
    · simp [removeVar, hf, h0]
    · intro r c h
      simp only [removeVar, hf, Option.map_some, Option.some.injEq, Prod.mk.injEq] at h
      obtain ⟨rfl, rfl⟩ := h
      refine ⟨hc.symm, normal_iff.2 (sublist_ok hp' (eraseTerm_sublist _ _)), fun w => ?_⟩
      rw [eraseTerm_coeff hp']
      by_cases e : w = m.1
      · rw [if_pos e.symm, if_pos e]
      · rw [if_neg (Ne.symm e), if_neg e]

/-- `negate`, `multiply_by` and `divide_by` with a factor other than 0. -/
theorem C87_scale {p : APoly} (hp : NormalPoly p) {c : ℚ} (hc : c ≠ 0) :
    (NormalPoly p.negate ∧ ∀ v, coeffOf p.negate v = -coeffOf p v) ∧
      (NormalPoly (p.multiplyBy c) ∧ ∀ v, coeffOf (p.multiplyBy c) v = c * coeffOf p v) ∧
      ∃ r, p.divideBy c = some r ∧ NormalPoly r ∧ ∀ v, coeffOf r v = coeffOf p v / c := by
  have hp' := normal_iff.1 hp
  refine ⟨⟨normal_iff.2 (map_ok (f := fun x => -x) (fun x hx => neg_ne_zero.2 hx) hp'), fun v => ?_⟩,
    ⟨normal_iff.2 (map_ok (f := fun x => x * c) (fun x hx => mul_ne_zero hx hc) hp'), fun v => ?_⟩,
    _, if_neg fun h => hc h.1, normal_iff.2 (map_ok (f := fun x => x / c) (fun x hx => div_ne_zero hx hc) hp'), fun v => ?_⟩
  · exact (coeffOf_map (fun x => -x) (-1) (fun x => by ring) p v).trans (by ring)
  · exact coeffOf_map (fun x => x * c) c (fun x => by ring) p v
  · exact (coeffOf_map (fun x => x / c) c⁻¹ (fun x => by rw [div_eq_mul_inv]; ring) p v).trans
      (by rw [div_eq_mul_inv]; ring)

/-- The factors other than 0 are needed: the functions do not check them, and with 0 the result is not normal. -/
theorem C87_zero_not_normal :
    ∃ p q : APoly, NormalPoly p ∧ NormalPoly q ∧
      (∃ r s, mergeMem p q 0 [] = some (r, s) ∧ ¬ NormalPoly r) ∧ ¬ NormalPoly (q.multiplyBy 0) ∧
      (∃ r, p.addTermC (some ⟨4⟩) 0 = some r ∧ ¬ NormalPoly r) ∧ q.divideBy 0 = none := by
  refine ⟨[], [(some ⟨2⟩, 1)], ⟨List.Pairwise.nil, nofun⟩, ⟨List.pairwise_singleton _ _, by simp⟩,
    ⟨[(some ⟨2⟩, 0)], ⟨[(some ⟨2⟩, 0)], 1, [some ⟨2⟩], []⟩, by decide +kernel, ?_⟩, ?_, ⟨[(some ⟨4⟩, 0)], by decide +kernel, ?_⟩,
    by decide +kernel⟩
  · exact fun h => h.2 _ List.mem_cons_self rfl
  · exact fun h => h.2 _ List.mem_cons_self (by simp)
  · exact fun h => h.2 _ List.mem_cons_self rfl

/-- Two polynomials with a constant, a variable that cancels, one that stays and one that is new. -/
def c87P : APoly := [(none, 3), (some ⟨4⟩, 2), (some ⟨6⟩, 1)]

def c87Q : APoly := [(some ⟨4⟩, 1), (some ⟨6⟩, 5), (some ⟨8⟩, 7)]

example : NormalPoly c87P ∧ NormalPoly c87Q ∧ (-2 : ℚ) ≠ 0 := by
  refine ⟨⟨?_, ?_⟩, ⟨?_, ?_⟩, by decide⟩ <;> simp [c87P, c87Q, varsOfPoly]

example : (mergeMem c87P c87Q (-2) [(some ⟨100⟩, 9)]).map (fun x => (x.1, x.2.added, x.2.removed)) =
    some ([(none, 3), (some ⟨6⟩, -9), (some ⟨8⟩, -14)], [some ⟨8⟩], [some ⟨4⟩]) := by decide +kernel

example : c87P.addTermC (some ⟨5⟩) 1 = some [(none, 3), (some ⟨4⟩, 2), (some ⟨5⟩, 1), (some ⟨6⟩, 1)] ∧
    c87P.addTermC (some ⟨4⟩) 1 = none ∧ c87P.removeVar (some ⟨4⟩) = some ([(none, 3), (some ⟨6⟩, 1)], 2) ∧
    c87P.removeVar (some ⟨5⟩) = none ∧ c87P.getCoeff none = some 3 := by decide +kernel

#print axioms C87_merge
#print axioms C87_add_term
#print axioms C87_get_remove
#print axioms C87_scale
#print axioms C87_zero_not_normal

end Yaga

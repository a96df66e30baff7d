/-
C39: arithmetic term construction keeps the meaning.
-/
import Verif.Proofs.TermOps

namespace Yaga

open TermTable Spec

/-- C39: in every table that the term manager can build, whatever an operation of well-typed arguments
returns has the value of the operation under every interpretation, and existing terms keep their values. -/
theorem C39_meaning {H : TermHash} {s : TermTable} (hs : TReach H s) {op : MgrOp} (ht : op.Typed s)
    {r : TermTable × Tm} (hr : op.run H s = some r) :
    (∀ I w, meaning I (den I s) s.type op = some w → den I r.1 r.2 = w) ∧
    (∀ I t, IsBool s t ∨ IsReal s t → den I r.1 t = den I s t) ∧ (IsBool r.1 r.2 ∨ IsReal r.1 r.2) := by
  obtain ⟨_, h2, h3, h4⟩ := run_res hs.wf ht hr
  exact ⟨h4, fun I t ht => den_typed_ext h2 ht I, h3⟩

/-- The operations of C39 on which the term manager is defined: a product has at most two factors and at
most one of two is not constant; a divisor is a constant different from 0. -/
def Linear (s : TermTable) : MgrOp → Prop
  | .rational _ | .plus _ | .minus _ _ | .neg _ | .geq _ _ | .leq _ _ | .lt _ _ | .gt _ _ | .ite _ _ _ => True
  | .times as => as.length < 2 ∨ ∃ a b, as = [a, b] ∧ (s.kind a = .arithConst ∨ s.kind b = .arithConst)
  | .divides _ b => s.kind b = .arithConst ∧ s.constValue b ≠ 0
  | _ => False

/-- C39: these operations return a term for all well-typed arguments. -/
theorem C39_total {H : TermHash} {s : TermTable} (hs : TReach H s) {op : MgrOp} (ht : op.Typed s)
    (hl : Linear s op) : ∃ r, op.run H s = some r := by
  have h := hs.wf
  have lift : ∀ {o : Option (TermTable × Tm)} {P : TermTable × Tm → Prop}, (∃ r, o = some r ∧ P r) →
      ∃ r, o = some r := fun ⟨r, h, _⟩ => ⟨r, h⟩
  cases op <;> simp only [Linear] at hl
  case rational => exact ⟨_, rfl⟩
  case ite =>
    obtain ⟨r', g1, _⟩ := mkIte_res (H := H) h ht.1 ht.2
    exact ⟨r', g1⟩
  case plus => exact lift (mkPlus_res (H := H) h ht)
  case minus => exact lift (mkMinus_res (H := H) h ht.1 ht.2)
  case neg => exact lift (mkUnaryMinus_res (H := H) h ht)
  case times as =>
    rcases hl with hl | ⟨a, b, rfl, hl⟩
    · match as, hl with
      | [], _ => exact ⟨_, rfl⟩
      | [t], _ => exact ⟨_, rfl⟩
      | _ :: _ :: _, hl => simp at hl; omega
    · exact lift (mkTimes_res (H := H) h (ht a (by simp)) (ht b (by simp)) (by unfold isArithConst; simpa using hl))
  case divides =>
    exact lift (mkDivides_res (H := H) h ht.1 ht.2 (by unfold isArithConst; simpa using hl.1) hl.2)
  case geq => exact lift (mkGeq_res (H := H) h ht.1 ht.2)
  case leq => exact lift (mkGeq_res (H := H) h ht.2 ht.1)
  case lt a b =>
    obtain ⟨r, h1, _⟩ := mkGeq_res (H := H) h ht.1 ht.2
    exact ⟨_, by show Option.map _ (s.mkGeq H a b) = _; rw [h1]; rfl⟩
  case gt a b =>
    obtain ⟨r, h1, _⟩ := mkGeq_res (H := H) h ht.2 ht.1
    exact ⟨_, by show Option.map _ (s.mkGeq H b a) = _; rw [h1]; rfl⟩

/-- C39, equality: `=` of two real terms returns a term exactly if they are the same term or denote
different polynomials (see C40); the term has the right value by `C39_meaning`. -/
theorem C39_equality {H : TermHash} {s : TermTable} (hs : TReach H s) {a b : Tm} (ha : IsReal s a)
    (hb : IsReal s b) : (∃ r, (MgrOp.eq a b).run H s = some r) ↔ a = b ∨ ¬ SamePoly s a b := by
  constructor
  · rintro ⟨r, hr⟩
    by_contra hne
    rw [not_or, not_not] at hne
    have hr : s.mkBinaryEq H a b = some r := hr
    unfold mkBinaryEq at hr
    rw [if_neg (by rw [ha.1, hb.1]; simp), ha.1] at hr
    simp only at hr
    rw [mkArithEq_fails hs.wf ha hb hne.1 hne.2] at hr
    cases hr
  · intro hne
    obtain ⟨r, h1, _⟩ := mkBinaryEq_res (H := H) hs.wf (Or.inr ⟨ha, hb, hne⟩)
    exact ⟨r, h1⟩

/-- A hash function with collisions everywhere. -/
private def h0 : TermHash := ⟨fun _ _ => 0, fun _ _ => 0, fun _ => 0⟩

/-- A table with the real constants 6, 8 and the number 2 (10). -/
private def t0 : TermTable :=
  ((((TermTable.init h0).fresh .real).1.fresh .real).1.arithConstant h0 2).1

private theorem t0_reach : TReach h0 t0 :=
  .step (op := .rational 2) (.step (op := .fresh .real) (.step (op := .fresh .real) .init
    (by unfold MgrOp.Typed; decide) rfl) (by unfold MgrOp.Typed; decide) rfl)
    trivial rfl

/-- Hypotheses of `C39_meaning` on `2 * y`, `y / 2` and `x + y + x < 2`. -/
example : (∃ r, (MgrOp.times [⟨10⟩, ⟨8⟩]).run h0 t0 = some r ∧ ∀ I, den I r.1 r.2 = .q (2 * I.constQ 4)) ∧
    (∃ r, (MgrOp.divides ⟨8⟩ ⟨10⟩).run h0 t0 = some r ∧ ∀ I, den I r.1 r.2 = .q (I.constQ 4 / 2)) ∧
    (∃ r, (MgrOp.plus [⟨6⟩, ⟨8⟩, ⟨6⟩]).run h0 t0 = some r ∧
      ∀ I, den I r.1 r.2 = .q (I.constQ 3 + (I.constQ 4 + I.constQ 3))) ∧
    (∃ r, (MgrOp.lt ⟨6⟩ ⟨10⟩).run h0 t0 = some r ∧ ∀ I, den I r.1 r.2 = .b (decide (I.constQ 3 < 2))) := by
  have key : ∀ {op : MgrOp}, op.Typed t0 → Linear t0 op → ∃ r, op.run h0 t0 = some r ∧
      ∀ I w, meaning I (den I t0) t0.type op = some w → den I r.1 r.2 = w := by
    intro op h1 h2
    obtain ⟨r, hr⟩ := C39_total t0_reach h1 h2
    exact ⟨r, hr, (C39_meaning t0_reach h1 hr).1⟩
  refine ⟨?_, ?_, ?_, ?_⟩
  · obtain ⟨r, h1, h2⟩ := key (op := .times [⟨10⟩, ⟨8⟩]) (by unfold MgrOp.Typed; decide)
      (Or.inr ⟨_, _, rfl, Or.inl (by decide)⟩)
    exact ⟨r, h1, fun I => h2 I _ (by show some (Val.q (2 * (I.constQ 4 * 1))) = _; rw [mul_one])⟩
  · obtain ⟨r, h1, h2⟩ := key (op := .divides ⟨8⟩ ⟨10⟩) (by unfold MgrOp.Typed; decide)
      ⟨by decide, by decide +kernel⟩
    exact ⟨r, h1, fun I => h2 I _ rfl⟩
  · obtain ⟨r, h1, h2⟩ := key (op := .plus [⟨6⟩, ⟨8⟩, ⟨6⟩]) (by unfold MgrOp.Typed; decide) trivial
    exact ⟨r, h1, fun I => h2 I _ (by
      show some (Val.q (I.constQ 3 + (I.constQ 4 + (I.constQ 3 + 0)))) = _; rw [add_zero])⟩
  · obtain ⟨r, h1, h2⟩ := key (op := .lt ⟨6⟩ ⟨10⟩) (by unfold MgrOp.Typed; decide) trivial
    exact ⟨r, h1, fun I => h2 I _ rfl⟩

#print axioms C39_meaning
#print axioms C39_total
#print axioms C39_equality

end Yaga

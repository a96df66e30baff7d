/-
C38: Boolean term construction keeps the meaning.
-/
import Verif.Proofs.TermOps

namespace Yaga

open TermTable Spec

/-- C38: in every table that the term manager can build, every connective (`or`, `and`, `implies`, `xor`,
Boolean `=`, Boolean `ite`, `distinct`) of well-typed arguments returns a Boolean or real term whose value
under every interpretation is that connective of the values of the arguments; existing terms keep
their values. -/
theorem C38_connectives {H : TermHash} {s : TermTable} (hs : TReach H s) {op : MgrOp}
    (hop : IsConnective s op) (ht : op.Typed s) {r : TermTable × Tm} (hr : op.run H s = some r) :
    (∀ I w, meaning I (den I s) s.type op = some w → den I r.1 r.2 = w) ∧
    (∀ I t, IsBool s t ∨ IsReal s t → den I r.1 t = den I s t) ∧ IsBool r.1 r.2 := by
  obtain ⟨_, h2, h3, h4⟩ := run_res hs.wf ht hr
  refine ⟨h4, fun I t ht => den_typed_ext h2 ht I, ?_⟩
  cases op <;> simp only [IsConnective] at hop
  case or => cases hr; exact (mkOr_res hs.wf ht).isBool
  case and => cases hr; exact (mkAnd_res hs.wf ht).isBool
  case implies => cases hr; exact (mkImplies_res hs.wf ht.1 ht.2).isBool
  case xor => cases hr; exact (mkXor_res hs.wf ht.1 ht.2).isBool
  case ite =>
    obtain ⟨r', g1, _, g2, _⟩ := mkIte_res (H := H) hs.wf ht.1 ht.2
    have : some r' = some r := g1.symm.trans hr
    cases this
    exact g2 hop
  case eq => exact (mkBinaryEq_some hs.wf ht hr).isBool
  case distinct => exact (mkDistinct_res hs.wf ht hr).isBool

/-- C38: negation of a handle is negation of the value. -/
theorem C38_not {H : TermHash} {s : TermTable} (hs : TReach H s) {t : Tm} (ht : IsBool s t) (I : Interp) :
    IsBool s t.opp ∧ den I s t.opp = .b (!(den I s t).bool) := by
  refine ⟨ht.opp, ?_⟩
  rw [hs.wf.den_bool ht.opp, denB_opp hs.wf ht]; rfl

theorem distinctFrom_bool {H : TermHash} {s : TermTable} (h : WF H s) {a : Tm} {bs : List Tm}
    (ha : IsBool s a) (hb : ∀ b ∈ bs, IsBool s b) : ∃ r, s.distinctFrom H a bs = some r := by
  induction bs generalizing s with
  | nil => exact ⟨_, rfl⟩
  | cons b bs ih =>
    obtain ⟨r, h1, h2⟩ := mkBinaryEq_res h (Or.inl ⟨ha, hb b (by simp)⟩)
    obtain ⟨r2, h3⟩ := ih h2.wf (ha.ext h2.ext) fun b' hb' => (hb b' (by simp [hb'])).ext h2.ext
    exact ⟨_, by rw [distinctFrom, h1, Option.bind_some, h3]; rfl⟩

theorem distinctPairs_bool {H : TermHash} {s : TermTable} (h : WF H s) {as : List Tm}
    (ha : ∀ a ∈ as, IsBool s a) : ∃ r, s.distinctPairs H as = some r := by
  induction as generalizing s with
  | nil => exact ⟨_, rfl⟩
  | cons a as ih =>
    obtain ⟨r, h1⟩ := distinctFrom_bool (H := H) (bs := as) h (ha a (by simp)) fun b hb => ha b (by simp [hb])
    obtain ⟨g1, g2, _, _⟩ := distinctFrom_spec h
      (fun b hb => Or.inl ⟨ha a (by simp), ha b (by simp [hb])⟩) h1
    obtain ⟨r2, h3⟩ := ih g1 fun b hb => (ha b (by simp [hb])).ext g2
    exact ⟨_, by rw [distinctPairs, h1, Option.bind_some, h3]; rfl⟩

/-- C38: every connective of Boolean arguments returns a term. (`distinct` of real arguments is as `=` of
C39.) -/
theorem C38_total {H : TermHash} {s : TermTable} (hs : TReach H s) {op : MgrOp} (hop : IsConnective s op)
    (ht : op.Typed s) (hd : ∀ as, op = .distinct as → ∀ a ∈ as, IsBool s a) :
    ∃ r, op.run H s = some r := by
  cases op <;> simp only [IsConnective] at hop
  case or => exact ⟨_, rfl⟩
  case and => exact ⟨_, rfl⟩
  case implies => exact ⟨_, rfl⟩
  case xor => exact ⟨_, rfl⟩
  case ite =>
    obtain ⟨r', g1, _⟩ := mkIte_res (H := H) hs.wf ht.1 ht.2
    exact ⟨r', g1⟩
  case eq a b =>
    have : IsBool s b := by
      rcases ht with ht | ht
      · exact ht.2
      · exact (type_bool_real hop ht.1).elim
    obtain ⟨r, h1, _⟩ := mkBinaryEq_res (H := H) hs.wf (Or.inl ⟨hop, this⟩)
    exact ⟨r, h1⟩
  case distinct as =>
    obtain ⟨r, h1⟩ := distinctPairs_bool (H := H) hs.wf (hd as rfl)
    exact ⟨_, by show s.mkDistinct H as = _; unfold mkDistinct; rw [h1]; rfl⟩

/-- A hash function with collisions everywhere. -/
private def h0 : TermHash := ⟨fun _ _ => 0, fun _ _ => 0, fun _ => 0⟩

/-- A table with the Boolean constants 6, 8, 10. -/
private def t0 : TermTable :=
  ((((TermTable.init h0).fresh .bool).1.fresh .bool).1.fresh .bool).1

private theorem t0_reach : TReach h0 t0 :=
  .step (op := .fresh .bool) (.step (op := .fresh .bool) (.step (op := .fresh .bool) .init
    (by unfold MgrOp.Typed; decide) rfl) (by unfold MgrOp.Typed; decide) rfl)
    (by unfold MgrOp.Typed; decide) rfl

/-- Hypotheses of `C38_connectives` on a clause with a duplicate and the constant `false`. -/
example : ∃ r, (MgrOp.or [⟨8⟩, Tm.ff, ⟨7⟩, ⟨8⟩]).run h0 t0 = some r ∧
    MgrOp.Typed t0 (.or [⟨8⟩, Tm.ff, ⟨7⟩, ⟨8⟩]) ∧
    ∀ I, den I r.1 r.2 = .b (I.constB 4 || !I.constB 3) := by
  refine ⟨_, rfl, by unfold MgrOp.Typed; decide, fun I => ?_⟩
  have := (C38_connectives t0_reach (op := .or [⟨8⟩, Tm.ff, ⟨7⟩, ⟨8⟩]) trivial
    (by unfold MgrOp.Typed; decide) rfl).1 I _ rfl
  rw [this]
  show Val.b (I.constB 4 || (false || (!I.constB 3 || (I.constB 4 || false)))) = _
  cases I.constB 4 <;> cases I.constB 3 <;> rfl

/-- Hypotheses of `C38_connectives` on `ite` with a negated condition and `distinct`. -/
example : (∃ r, (MgrOp.ite ⟨7⟩ ⟨8⟩ ⟨10⟩).run h0 t0 = some r) ∧
    (∃ r, (MgrOp.distinct [⟨6⟩, ⟨8⟩, ⟨10⟩]).run h0 t0 = some r ∧
      ∀ I, den I r.1 r.2 = .b false) := by
  refine ⟨C38_total t0_reach (show IsBool t0 ⟨8⟩ by decide) (by unfold MgrOp.Typed; decide)
    (by intro as h; cases h), ?_⟩
  have hty : MgrOp.Typed t0 (.distinct [⟨6⟩, ⟨8⟩, ⟨10⟩]) := by unfold MgrOp.Typed; decide
  obtain ⟨r, hr⟩ := C38_total t0_reach (op := .distinct [⟨6⟩, ⟨8⟩, ⟨10⟩]) trivial hty
    (by intro as h; cases h; decide)
  refine ⟨r, hr, fun I => ?_⟩
  rw [(C38_connectives t0_reach (op := .distinct [⟨6⟩, ⟨8⟩, ⟨10⟩]) trivial hty hr).1 I _ rfl]
  show Val.b (decide ([Val.b (I.constB 3), Val.b (I.constB 4), Val.b (I.constB 5)].Nodup)) = _
  cases I.constB 3 <;> cases I.constB 4 <;> cases I.constB 5 <;> decide

#print axioms C38_connectives
#print axioms C38_not
#print axioms C38_total

end Yaga

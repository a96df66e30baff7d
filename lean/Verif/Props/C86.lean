/-
C86: no assertion of the term table and the term manager fails.
-/
import Verif.Proofs.TermChecked
import Verif.Props.C38
import Verif.Props.C39

namespace Yaga

open TermTable Spec

/-- C86: the term table is constructed without a failed assertion, and `true` and `zero` get the fixed handles. -/
theorem C86_init (H : TermHash) : initC H = some (TermTable.init H) := by
  unfold initC TermTable.init
  by_cases hh : H.const .bool 0 = H.rat 0 <;>
    simp [getC, findC, TermTable.get, construct, constantTerm, arithConstant, arithConstantC, keyEqualC, entry, Tm.positive, Tm.tt,
      Tm.zero, Tm.index, need, hh]

/-- C86: in every table that the term manager can build, every operation of well-typed arguments with all its
assertions, table accesses and descriptor casts does exactly what the operation without them does. -/
theorem C86_checked {H : TermHash} {s : TermTable} (hs : TReach H s) {op : MgrOp} (ht : op.Typed s) :
    op.runC H s = op.run H s := runC_eq hs.wf ht

/-- The operations without a documented restriction or with arguments that satisfy it: a product has at most two factors
and at most one of two is not constant, a divisor is a constant different from 0, and different real terms that are
compared denote different polynomials (C40 says when they do). -/
def Defined (s : TermTable) : MgrOp → Prop
  | .times as => as.length < 2 ∨ ∃ a b, as = [a, b] ∧ (s.kind a = .arithConst ∨ s.kind b = .arithConst)
  | .divides _ b => s.kind b = .arithConst ∧ s.constValue b ≠ 0
  | .eq a b => IsBool s a ∨ a = b ∨ ¬ SamePoly s a b
  | .distinct as => (∀ a ∈ as, IsBool s a) ∨ as.Pairwise fun a b => a = b ∨ ¬ SamePoly s a b
  | _ => True

theorem linVal_ext {H : TermHash} {s s' : TermTable} (h : WF H s) (h' : WF H s') (he : Ext s s') {t : Tm}
    (ht : IsReal s t) (ρ : Tm → ℚ) : linVal ρ s' t = linVal ρ s t := by
  rcases real_cases h ht with ⟨q, hq⟩ | hv | ⟨c, x, q, hq, hc, hce, -⟩ | ⟨as, p, hq, hl, hp, hf⟩
  · have h1 := he.entry hq
    simp only [linVal, monoVal, kind_of_entry hq, kind_of_entry h1, constValue_of_entry hq, constValue_of_entry h1,
      reduceCtorEq, if_false]
  · have h1 := hv.ext he
    have e1 : linVal ρ s t = ρ t := by rcases hv with h | h | h <;> simp [linVal, monoVal, h]
    have e2 : linVal ρ s' t = ρ t := by rcases h1 with h | h | h <;> simp [linVal, monoVal, h]
    rw [e1, e2]
  · obtain ⟨a1, a2, a3⟩ := product_of_entry hq hce
    obtain ⟨b1, b2, b3⟩ := product_of_entry (he.entry hq) (he.entry hce)
    simp only [linVal, monoVal, a1, a2, a3, b1, b2, b3, reduceCtorEq, if_false]
  · have e1 : s.allArgs t = as := by simp only [allArgs, descr_of_entry hq]
    have e2 : s'.allArgs t = as := by simp only [allArgs, descr_of_entry (he.entry hq)]
    simp only [linVal, kind_of_entry hq, kind_of_entry (he.entry hq), if_true, e1, e2]
    congr 1
    clear e1 e2 hq hl hp
    induction hf with
    | nil => rfl
    | cons hm _ ih =>
      rw [List.map_cons, List.map_cons, ih, (monoVal_mono h hm ρ).1, (monoVal_mono h' (hm.ext he) ρ).1]

theorem samePoly_ext {H : TermHash} {s s' : TermTable} (h : WF H s) (h' : WF H s') (he : Ext s s') {a b : Tm}
    (ha : IsReal s a) (hb : IsReal s b) : SamePoly s' a b ↔ SamePoly s a b := by
  unfold SamePoly
  simp only [linVal_ext h h' he ha, linVal_ext h h' he hb]

theorem mkBinaryEq_iff {H : TermHash} {s : TermTable} (h : WF H s) {a b : Tm} (ha : IsReal s a)
    (hb : IsReal s b) : (∃ r, s.mkBinaryEq H a b = some r) ↔ a = b ∨ ¬ SamePoly s a b := by
  constructor
  · rintro ⟨r, hr⟩
    by_contra hne
    rw [not_or, not_not] at hne
    unfold mkBinaryEq at hr
    rw [if_neg (by rw [ha.1, hb.1]; simp), ha.1] at hr
    simp only at hr
    rw [mkArithEq_fails h ha hb hne.1 hne.2] at hr
    cases hr
  · intro hne
    obtain ⟨r, h1, _⟩ := mkBinaryEq_res (H := H) h (Or.inr ⟨ha, hb, hne⟩)
    exact ⟨r, h1⟩

theorem distinctFrom_iff {H : TermHash} {a : Tm} : ∀ {bs : List Tm} {s : TermTable}, WF H s → IsReal s a →
    (∀ b ∈ bs, IsReal s b) → ((∃ r, s.distinctFrom H a bs = some r) ↔ ∀ b ∈ bs, a = b ∨ ¬ SamePoly s a b)
  | [], s, _, _, _ => ⟨fun _ => nofun, fun _ => ⟨_, rfl⟩⟩
  | b :: bs, s, h, ha, hb => by
    have hbr := hb b (by simp)
    have h1 := mkBinaryEq_iff h ha hbr
    cases hr : s.mkBinaryEq H a b with
    | none =>
      have : ¬ (a = b ∨ ¬ SamePoly s a b) := fun hd => by
        obtain ⟨r, h2⟩ := h1.2 hd
        rw [hr] at h2
        cases h2
      simp only [distinctFrom, hr, Option.bind_none, reduceCtorEq, exists_false, List.mem_cons, forall_eq_or_imp, this,
        false_and]
    | some r =>
      have h2 := mkBinaryEq_some h (Or.inr ⟨ha, hbr⟩) hr
      have h3 := h1.1 ⟨r, hr⟩
      have ih := distinctFrom_iff (bs := bs) h2.wf (ha.ext h2.ext) fun c hc => (hb c (by simp [hc])).ext h2.ext
      simp only [distinctFrom, hr, Option.bind_some, List.mem_cons, forall_eq_or_imp, h3, true_and]
      have e : (∃ r', (r.1.distinctFrom H a bs).map (fun r2 => (r2.1, r.2.opp :: r2.2)) = some r') ↔
          ∃ r', r.1.distinctFrom H a bs = some r' := by
        cases r.1.distinctFrom H a bs <;> simp
      rw [e, ih]
      exact forall₂_congr fun c hc => by rw [samePoly_ext h h2.wf h2.ext ha (hb c (by simp [hc]))]

theorem distinctPairs_iff {H : TermHash} : ∀ {as : List Tm} {s : TermTable}, WF H s → (∀ a ∈ as, IsReal s a) →
    ((∃ r, s.distinctPairs H as = some r) ↔ as.Pairwise fun a b => a = b ∨ ¬ SamePoly s a b)
  | [], s, _, _ => ⟨fun _ => List.Pairwise.nil, fun _ => ⟨_, rfl⟩⟩
  | a :: as, s, h, hr => by
    have ha := hr a (by simp)
    have h1 := distinctFrom_iff (bs := as) h ha fun b hb => hr b (by simp [hb])
    rw [List.pairwise_cons, ← h1]
    cases hf : s.distinctFrom H a as with
    | none => simp [distinctPairs, hf]
    | some r =>
      obtain ⟨g1, g2, -⟩ := distinctFrom_spec h (fun b hb => Or.inr ⟨ha, hr b (by simp [hb])⟩) hf
      have ih := distinctPairs_iff (as := as) g1 fun b hb => (hr b (by simp [hb])).ext g2
      simp only [distinctPairs, hf, Option.bind_some, Option.some.injEq, exists_eq', true_and]
      have e : (∃ r', (r.1.distinctPairs H as).map (fun r2 => (r2.1, r.2 ++ r2.2)) = some r') ↔
          ∃ r', r.1.distinctPairs H as = some r' := by
        cases r.1.distinctPairs H as <;> simp
      rw [e, ih]
      refine List.Pairwise.iff_of_mem fun {c d} hc hd => ?_
      rw [samePoly_ext h g1 g2 (hr c (by simp [hc])) (hr d (by simp [hd]))]

/-- C86: an operation of well-typed arguments runs without a failed assertion exactly if it is defined. -/
theorem C86_fails_exactly {H : TermHash} {s : TermTable} (hs : TReach H s) {op : MgrOp} (ht : op.Typed s) :
    (∃ r, op.runC H s = some r) ↔ Defined s op := by
  rw [C86_checked hs ht]
  have lin : ∀ {op : MgrOp}, op.Typed s → Linear s op → ∃ r, op.run H s = some r := fun h1 h2 => C39_total hs h1 h2
  cases op with
  | eq a b =>
    rcases ht with ht | ht
    · refine ⟨fun _ => .inl ht.1, fun _ => ?_⟩
      obtain ⟨r, h1, _⟩ := mkBinaryEq_res (H := H) hs.wf (Or.inl ht)
      exact ⟨r, h1⟩
    · rw [C39_equality hs ht.1 ht.2]
      exact ⟨.inr, fun h => h.resolve_left fun h => type_bool_real h ht.1⟩
  | distinct as =>
    have e : (∃ r, (MgrOp.distinct as).run H s = some r) ↔ ∃ r, s.distinctPairs H as = some r := by
      show (∃ r, s.mkDistinct H as = some r) ↔ _
      unfold mkDistinct
      cases s.distinctPairs H as <;> simp
    rcases ht with ht | ht
    · exact ⟨fun _ => .inl ht, fun _ => e.2 (distinctPairs_bool hs.wf ht)⟩
    · rw [e, distinctPairs_iff hs.wf ht]
      refine ⟨.inr, fun h => h.elim (fun hb => ?_) id⟩
      cases as with
      | nil => exact List.Pairwise.nil
      | cons a as => exact (type_bool_real (hb a (by simp)) (ht a (by simp))).elim
  | times as =>
    refine ⟨fun ⟨r, hr⟩ => ?_, fun h => lin ht h⟩
    match as, hr with
    | [], _ => exact .inl (by simp)
    | [t], _ => exact .inl (by simp)
    | [a, b], hr =>
      refine .inr ⟨a, b, rfl, ?_⟩
      by_contra hn
      rw [not_or] at hn
      have h1 : s.isArithConst a = false := by simpa [isArithConst] using hn.1
      have h2 : s.isArithConst b = false := by simpa [isArithConst] using hn.2
      have hr : s.mkTimes H [a, b] = some r := hr
      simp [mkTimes, h1, h2] at hr
    | _ :: _ :: _ :: _, hr => cases (show (none : Option (TermTable × Tm)) = some r from hr)
  | divides a b =>
    refine ⟨fun ⟨r, hr⟩ => ?_, fun h => lin ht h⟩
    have hr : s.mkDivides H a b = some r := hr
    unfold mkDivides at hr
    split at hr
    · cases hr
    · rename_i hn
      rw [not_or] at hn
      exact ⟨by simpa [isArithConst] using hn.1, hn.2⟩
  | fresh ty => exact ⟨fun _ => trivial, fun _ => ⟨_, rfl⟩⟩
  | rational q => exact ⟨fun _ => trivial, fun _ => ⟨_, rfl⟩⟩
  | or as => exact ⟨fun _ => trivial, fun _ => ⟨_, rfl⟩⟩
  | and as => exact ⟨fun _ => trivial, fun _ => ⟨_, rfl⟩⟩
  | implies a b => exact ⟨fun _ => trivial, fun _ => ⟨_, rfl⟩⟩
  | xor a b => exact ⟨fun _ => trivial, fun _ => ⟨_, rfl⟩⟩
  | ite c t e => exact ⟨fun _ => trivial, fun _ => lin ht trivial⟩
  | plus as => exact ⟨fun _ => trivial, fun _ => lin ht trivial⟩
  | minus a b => exact ⟨fun _ => trivial, fun _ => lin ht trivial⟩
  | neg a => exact ⟨fun _ => trivial, fun _ => lin ht trivial⟩
  | geq a b => exact ⟨fun _ => trivial, fun _ => lin ht trivial⟩
  | leq a b => exact ⟨fun _ => trivial, fun _ => lin ht trivial⟩
  | lt a b => exact ⟨fun _ => trivial, fun _ => lin ht trivial⟩
  | gt a b => exact ⟨fun _ => trivial, fun _ => lin ht trivial⟩
  | app f as => exact ⟨fun _ => trivial, fun _ => ⟨_, rfl⟩⟩

/-- A hash function with collisions everywhere. -/
private def hz : TermHash := ⟨fun _ _ => 0, fun _ _ => 0, fun _ => 0⟩

/-- A table with the real constants 6 and 8 and the Boolean constant 10. -/
private def tz : TermTable := ((((TermTable.init hz).fresh .real).1.fresh .real).1.fresh .bool).1

private theorem tz_reach : TReach hz tz :=
  .step (op := .fresh .bool) (.step (op := .fresh .real) (.step (op := .fresh .real) .init
    (by unfold MgrOp.Typed; decide) rfl) (by unfold MgrOp.Typed; decide) rfl)
    (by unfold MgrOp.Typed; decide) rfl

/-- Hypotheses of the theorems: `x + y` is a new polynomial, found again by a second construction although every hash
is equal; a product of two variables fails. -/
example : MgrOp.Typed tz (.plus [⟨6⟩, ⟨8⟩]) ∧ Defined tz (.plus [⟨6⟩, ⟨8⟩]) ∧
    (MgrOp.runC hz tz (.plus [⟨6⟩, ⟨8⟩])).map (fun r => (r.2, (MgrOp.runC hz r.1 (.plus [⟨8⟩, ⟨6⟩])).map Prod.snd)) =
      some (⟨12⟩, some ⟨12⟩) ∧
    MgrOp.Typed tz (.times [⟨6⟩, ⟨8⟩]) ∧ MgrOp.runC hz tz (.times [⟨6⟩, ⟨8⟩]) = none :=
  ⟨by unfold MgrOp.Typed; decide, trivial, by decide +kernel, by unfold MgrOp.Typed; decide, by decide +kernel⟩

/-- Without the types assertions do fail: `ite` with a real condition, `distinct` of a real and a Boolean term. -/
example : MgrOp.runC hz tz (.ite ⟨6⟩ ⟨6⟩ ⟨8⟩) = none ∧ MgrOp.runC hz tz (.distinct [⟨6⟩, ⟨10⟩]) = none ∧
    MgrOp.runC hz tz (.plus [⟨10⟩, Tm.tt]) = none := by decide +kernel

#print axioms C86_init
#print axioms C86_checked
#print axioms C86_fails_exactly

end Yaga

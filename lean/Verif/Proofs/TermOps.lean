/-
All functions of the term manager: invariant and meaning.
-/
import Verif.Proofs.TermArith
import Verif.Spec.TermOps

set_option linter.unusedSectionVars false
set_option linter.unusedVariables false
set_option linter.unusedSimpArgs false

namespace Yaga

open Spec TermTable

variable {H : TermHash} {s : TermTable}

/-- Real terms have numbers as values. -/
theorem WF.den_real (h : WF H s) {I : Interp} : ∀ (n : Nat) {t : Tm}, t.index < n → IsReal s t →
    Spec.den I s t = .q (denQ I s t) := by
  intro n
  induction n with
  | zero => intro t ht; omega
  | succ n ih =>
    intro t ht hr
    suffices hp : ∃ v, Spec.den I s t = .q v by
      obtain ⟨v, hv⟩ := hp; unfold denQ; rw [hv]; rfl
    obtain ⟨e, he, hty⟩ := entry_of_type (s := s) (t := t) (by rw [hr.1]; decide)
    rw [hr.1] at hty
    have hb := h.below _ _ he
    rw [h.den he hr.2]
    have hs := h.shape _ _ he
    obtain ⟨k, ty, d⟩ := e
    simp only at hty
    subst hty
    cases k <;> simp only [Shape] at hs
    case reserved => exact absurd hs.1 (by decide)
    case constant => exact absurd hs.1 (by decide)
    case arithConst => obtain ⟨_, q, h1⟩ := hs; rw [h1]; exact ⟨_, rfl⟩
    case uninterpreted => rw [hs.2]; exact ⟨_, rfl⟩
    case ite =>
      obtain ⟨_, c, a, b, h1, _, h2, h3⟩ := hs
      subst h1
      have ha : a.index < t.index := hb a (by simp [argsOf])
      have hb' : b.index < t.index := hb b (by simp [argsOf])
      simp only [evalEntry]
      split
      · exact ⟨_, ih (by omega) h2⟩
      · exact ⟨_, ih (by omega) h3⟩
    case app => obtain ⟨_, f, as, h1, _⟩ := hs; rw [h1]; exact ⟨_, rfl⟩
    case or => exact absurd hs.1 (by decide)
    case arithEq => exact absurd hs.1 (by decide)
    case arithGe => exact absurd hs.1 (by decide)
    case arithBinEq => exact absurd hs.1 (by decide)
    case product => obtain ⟨_, c, x, q, h1, _⟩ := hs; rw [h1]; exact ⟨_, rfl⟩
    case poly => obtain ⟨_, as, p, h1, _⟩ := hs; rw [h1]; exact ⟨_, rfl⟩

theorem den_real (h : WF H s) {I : Interp} {t : Tm} (hr : IsReal s t) : den I s t = .q (denQ I s t) :=
  WF.den_real h (t.index + 1) (by omega) hr

/-- The result of an operation with the given value. -/
structure MRes (H : TermHash) (s : TermTable) (r : TermTable × Tm) (f : Interp → Val) : Prop where
  wf : WF H r.1
  ext : Ext s r.1
  typed : IsBool r.1 r.2 ∨ IsReal r.1 r.2
  val : ∀ I, den I r.1 r.2 = f I

theorem BRes.mres {r : TermTable × Tm} {f : Interp → Bool} {g : Interp → Val} (h : BRes H s r f)
    (hg : ∀ I, g I = .b (f I)) : MRes H s r g :=
  ⟨h.wf, h.ext, Or.inl h.isBool, fun I => by rw [h.wf.den_bool h.isBool, h.val I, hg I]⟩

theorem QRes.mres {r : TermTable × Tm} {f : Interp → ℚ} {g : Interp → Val} (h : QRes H s r f)
    (hg : ∀ I, g I = .q (f I)) : MRes H s r g :=
  ⟨h.wf, h.ext, Or.inr h.isReal, fun I => by rw [den_real h.wf h.isReal, h.val I, hg I]⟩

theorem type_bool_real {t : Tm} (h : IsBool s t) (h' : IsReal s t) : False := by
  have h1 : s.type t = .bool := h
  rw [h'.1] at h1; cases h1

theorem mkIte_res (h : WF H s) {c t e : Tm} (hc : IsBool s c)
    (hte : (IsBool s t ∧ IsBool s e) ∨ (IsReal s t ∧ IsReal s e)) :
    ∃ r, s.mkIte H c t e = some r ∧
      MRes H s r (fun I => if (den I s c).bool then den I s t else den I s e) ∧
      (IsBool s t → IsBool r.1 r.2) ∧ (IsReal s t → IsReal r.1 r.2) := by
  unfold mkIte
  rcases hte with ⟨ht, he⟩ | ⟨ht, he⟩
  · have h1 : s.type t = .bool := ht
    have h2 : s.type e = .bool := he
    rw [if_neg (by rw [h1, h2]; simp), h1]
    have hr := mkBoolIte_res h hc ht he
    refine ⟨_, rfl, hr.mres fun I => ?_, fun _ => hr.isBool, fun h' => (type_bool_real ht h').elim⟩
    rw [h.den_bool ht, h.den_bool he]
    show (if denB I s c then _ else _) = _
    split <;> rfl
  · rw [if_neg (by rw [ht.1, he.1]; simp), ht.1]
    have hr := mkArithIte_res h hc ht he
    refine ⟨_, rfl, hr.mres fun I => ?_, fun h' => (type_bool_real h' ht).elim, fun _ => hr.isReal⟩
    rw [den_real h ht, den_real h he]
    show (if denB I s c then _ else _) = _
    split <;> rfl

/-- Equality of two terms of the same type. `hne`: no two different terms for the same polynomial. -/
theorem mkBinaryEq_res (h : WF H s) {a b : Tm}
    (hab : (IsBool s a ∧ IsBool s b) ∨ (IsReal s a ∧ IsReal s b ∧ (a = b ∨ ¬ SamePoly s a b))) :
    ∃ r, s.mkBinaryEq H a b = some r ∧ BRes H s r (fun I => decide (den I s a = den I s b)) := by
  unfold mkBinaryEq
  rcases hab with ⟨ha, hb⟩ | ⟨ha, hb, hne⟩
  · have h1 : s.type a = .bool := ha
    have h2 : s.type b = .bool := hb
    rw [if_neg (by rw [h1, h2]; simp), h1]
    refine ⟨_, rfl, (mkIff_res h ha hb).congr fun I => ?_⟩
    rw [h.den_bool ha, h.den_bool hb]
    cases denB I s a <;> cases denB I s b <;> rfl
  · rw [if_neg (by rw [ha.1, hb.1]; simp), ha.1]
    obtain ⟨r, h1, h2⟩ := mkArithEq_res h ha hb hne
    refine ⟨r, h1, h2.congr fun I => ?_⟩
    rw [den_real h ha, den_real h hb]
    apply decide_eq_decide.mpr
    exact ⟨fun h => by rw [h], fun h => by injection h⟩

/-- If equality of two typed terms succeeds then it is correct. -/
theorem mkBinaryEq_some (h : WF H s) {a b : Tm}
    (hab : (IsBool s a ∧ IsBool s b) ∨ (IsReal s a ∧ IsReal s b)) {r : TermTable × Tm}
    (hr : s.mkBinaryEq H a b = some r) : BRes H s r (fun I => decide (den I s a = den I s b)) := by
  have key : (IsBool s a ∧ IsBool s b) ∨ (IsReal s a ∧ IsReal s b ∧ (a = b ∨ ¬ SamePoly s a b)) := by
    rcases hab with hab | ⟨ha, hb⟩
    · exact Or.inl hab
    · refine Or.inr ⟨ha, hb, ?_⟩
      by_cases h1 : a = b
      · exact Or.inl h1
      · refine Or.inr fun hs => ?_
        unfold mkBinaryEq at hr
        rw [if_neg (by rw [ha.1, hb.1]; simp), ha.1] at hr
        simp only at hr
        rw [mkArithEq_fails h ha hb h1 hs] at hr
        cases hr
  obtain ⟨r', h1, h2⟩ := mkBinaryEq_res h key
  rw [h1] at hr
  cases hr
  exact h2

theorem sameType_ext {s' : TermTable} (he : Ext s s') {a b : Tm}
    (h : (IsBool s a ∧ IsBool s b) ∨ (IsReal s a ∧ IsReal s b)) :
    (IsBool s' a ∧ IsBool s' b) ∨ (IsReal s' a ∧ IsReal s' b) :=
  h.imp (fun h => ⟨h.1.ext he, h.2.ext he⟩) (fun h => ⟨h.1.ext he, h.2.ext he⟩)

theorem den_typed_ext {s' : TermTable} (he : Ext s s') {a : Tm} (h : IsBool s a ∨ IsReal s a) (I : Interp) :
    den I s' a = den I s a := den_ext he (h.elim (·.index_lt) (·.index_lt))

/-- All terms of the list are of the same type as `a`. -/
def SameTy (s : TermTable) (a b : Tm) : Prop := (IsBool s a ∧ IsBool s b) ∨ (IsReal s a ∧ IsReal s b)

theorem SameTy.left {a b : Tm} (h : SameTy s a b) : IsBool s a ∨ IsReal s a := h.imp (·.1) (·.1)
theorem SameTy.right {a b : Tm} (h : SameTy s a b) : IsBool s b ∨ IsReal s b := h.imp (·.2) (·.2)

theorem distinctFrom_spec (h : WF H s) {a : Tm} {bs : List Tm} (hb : ∀ b ∈ bs, SameTy s a b)
    {r : TermTable × List Tm} (hr : s.distinctFrom H a bs = some r) :
    WF H r.1 ∧ Ext s r.1 ∧ (∀ d ∈ r.2, IsBool r.1 d) ∧
    ∀ I, r.2.all (denB I r.1) = bs.all fun b => decide (den I s a ≠ den I s b) := by
  induction bs generalizing s r with
  | nil =>
    simp only [distinctFrom, Option.some.injEq] at hr
    subst hr
    exact ⟨h, Ext.refl s, by simp, by simp⟩
  | cons b bs ih =>
    simp only [distinctFrom] at hr
    obtain ⟨r1, h1, hr⟩ := Option.bind_eq_some_iff.mp hr
    obtain ⟨r2, h2, hr⟩ := Option.map_eq_some_iff.mp hr
    subst hr
    have e1 := mkBinaryEq_some h (hb b (by simp)) h1
    obtain ⟨i1, i2, i3, i4⟩ := ih e1.wf (fun b' hb' => sameType_ext e1.ext (hb b' (by simp [hb']))) h2
    refine ⟨i1, e1.ext.trans i2, ?_, ?_⟩
    · intro d hd
      rcases List.mem_cons.mp hd with rfl | hd
      · exact (e1.isBool.ext i2).opp
      · exact i3 d hd
    · intro I
      rw [List.all_cons, List.all_cons, i4 I, denB_opp i1 (e1.isBool.ext i2), denB_ext i2 e1.isBool, e1.val I]
      congr 1
      · simp
      · have hal := den_typed_ext e1.ext (hb b (by simp)).left I
        have hbs : ∀ b' ∈ bs, den I r1.1 b' = den I s b' := fun b' hb' =>
          den_typed_ext e1.ext (hb b' (by simp [hb'])).right I
        rw [hal]
        apply Bool.eq_iff_iff.mpr
        simp only [List.all_eq_true]
        exact ⟨fun hh d hd => by rw [← hbs d hd]; exact hh d hd,
          fun hh d hd => by rw [hbs d hd]; exact hh d hd⟩

theorem distinctPairs_spec (h : WF H s) {as : List Tm} (ha : ∀ a ∈ as, ∀ b ∈ as, SameTy s a b)
    {r : TermTable × List Tm} (hr : s.distinctPairs H as = some r) :
    WF H r.1 ∧ Ext s r.1 ∧ (∀ d ∈ r.2, IsBool r.1 d) ∧
    ∀ I, r.2.all (denB I r.1) = decide (as.map (den I s)).Nodup := by
  induction as generalizing s r with
  | nil =>
    simp only [distinctPairs, Option.some.injEq] at hr
    subst hr
    exact ⟨h, Ext.refl s, by simp, by simp⟩
  | cons a as ih =>
    simp only [distinctPairs] at hr
    obtain ⟨r1, h1, hr⟩ := Option.bind_eq_some_iff.mp hr
    obtain ⟨r2, h2, hr⟩ := Option.map_eq_some_iff.mp hr
    subst hr
    obtain ⟨e1, e2, e3, e4⟩ := distinctFrom_spec h (fun b hb => ha a (by simp) b (by simp [hb])) h1
    obtain ⟨i1, i2, i3, i4⟩ := ih e1 (fun x hx y hy =>
      sameType_ext e2 (ha x (by simp [hx]) y (by simp [hy]))) h2
    refine ⟨i1, e2.trans i2, ?_, ?_⟩
    · intro d hd
      rcases List.mem_append.mp hd with hd | hd
      · exact (e3 d hd).ext i2
      · exact i3 d hd
    · intro I
      rw [List.all_append, i4 I]
      have hkeep : r1.2.all (denB I r2.1) = r1.2.all (denB I r1.1) := by
        apply Bool.eq_iff_iff.mpr
        simp only [List.all_eq_true]
        exact ⟨fun hh d hd => by rw [← denB_ext i2 (e3 d hd)]; exact hh d hd,
          fun hh d hd => by rw [denB_ext i2 (e3 d hd)]; exact hh d hd⟩
      have hmap : as.map (den I r1.1) = as.map (den I s) :=
        List.map_congr_left fun x hx => den_typed_ext e2 (ha x (by simp [hx]) x (by simp [hx])).left I
      rw [hkeep, e4 I, hmap]
      apply Bool.eq_iff_iff.mpr
      simp only [Bool.and_eq_true, List.all_eq_true, decide_eq_true_eq, List.map_cons, List.nodup_cons,
        List.mem_map, not_exists, not_and]
      constructor
      · rintro ⟨h1, h2⟩
        exact ⟨fun x hx he => h1 x hx he.symm, h2⟩
      · rintro ⟨h1, h2⟩
        exact ⟨fun x hx he => h1 x hx he.symm, h2⟩

theorem mkDistinct_res (h : WF H s) {as : List Tm}
    (ha : (∀ a ∈ as, IsBool s a) ∨ (∀ a ∈ as, IsReal s a)) {r : TermTable × Tm}
    (hr : s.mkDistinct H as = some r) : BRes H s r (fun I => decide (as.map (den I s)).Nodup) := by
  have ha' : ∀ a ∈ as, ∀ b ∈ as, SameTy s a b := by
    intro a hx b hy
    exact ha.imp (fun ha => ⟨ha a hx, ha b hy⟩) (fun ha => ⟨ha a hx, ha b hy⟩)
  unfold mkDistinct at hr
  obtain ⟨r1, h1, hr⟩ := Option.map_eq_some_iff.mp hr
  subst hr
  obtain ⟨e1, e2, e3, e4⟩ := distinctPairs_spec h ha' h1
  refine ((mkAnd_res e1 e3).of_ext e2).congr fun I => e4 I

theorem mkApp_res (h : WF H s) {f : Tm} {as : List Tm} (hf : s.kind f = .uninterpreted)
    (hn : f.isNeg = false) (ha : ∀ a ∈ as, IsBool s a ∨ IsReal s a) :
    MRes H s (s.mkApp H (s.type f) f as) (fun I => if s.type f = .bool
      then .b (I.fnB f.index (as.map (den I s))) else .q (I.fnQ f.index (as.map (den I s)))) := by
  have hty : s.type f ≠ .null := by
    obtain ⟨e, he, hk⟩ := entry_of_kind (s := s) (t := f) (by rw [hf]; decide)
    have hs := h.shape _ _ he
    unfold Shape at hs
    rw [hk, hf] at hs
    rw [type_of_entry he]
    exact hs.1
  obtain ⟨h1, h2, h3, h4⟩ := composite_wf (k := .app) (ty := s.type f) (as := f :: as) h (by decide)
    ⟨hty, f, as, rfl, ⟨hf, hn⟩, ha⟩
  refine ⟨h1, h2, ?_, fun I => ?_⟩
  · have h5 := type_of_entry h3
    rcases hcase : s.type f with _ | _ | _
    · exact absurd hcase hty
    · left; rw [← hcase]; exact h5.trans hcase
    · right; rw [← hcase]; exact ⟨h5.trans hcase, h4⟩
  · show den I (s.composite H .app (s.type f) (f :: as)).1 (s.composite H .app (s.type f) (f :: as)).2 = _
    have := h1.den (I := I) h3 h4
    rw [this]
    have hmap : as.map (den I (s.composite H .app (s.type f) (f :: as)).1) = as.map (den I s) :=
      List.map_congr_left fun a ha' => den_typed_ext h2 (ha a ha') I
    unfold evalEntry
    simp only [hmap]

theorem mkTimes_some (h : WF H s) {as : List Tm} (ha : ∀ a ∈ as, IsReal s a) {r : TermTable × Tm}
    (hr : s.mkTimes H as = some r) : QRes H s r (fun I => (as.map (denQ I s)).prod) := by
  match as, ha, hr with
  | [], _, hr =>
    cases hr
    exact (arithConstant_res h 1).congr fun I => by simp
  | [t], ha, hr =>
    cases hr
    exact QRes.same h (ha t (by simp)) fun I => by simp
  | [a, b], ha, hr =>
    have hA := ha a (by simp)
    have hB := ha b (by simp)
    by_cases hc : s.isArithConst a = true ∨ s.isArithConst b = true
    · obtain ⟨r', h1, h2⟩ := mkTimes_res h hA hB hc
      rw [h1] at hr
      cases hr
      exact h2.congr fun I => by simp
    · exfalso
      rw [not_or] at hc
      have h1 : s.isArithConst a = false := by simpa using hc.1
      have h2 : s.isArithConst b = false := by simpa using hc.2
      unfold mkTimes at hr
      simp [List.filter_cons, h1, h2] at hr
  | _ :: _ :: _ :: _, _, hr => cases hr

/-- Whatever a typed operation of the term manager returns is a term of the right value in a
well-formed table. -/
theorem run_res (h : WF H s) {op : MgrOp} (ht : op.Typed s) {r : TermTable × Tm}
    (hr : op.run H s = some r) :
    WF H r.1 ∧ Ext s r.1 ∧ (IsBool r.1 r.2 ∨ IsReal r.1 r.2) ∧
    ∀ I w, meaning I (den I s) s.type op = some w → den I r.1 r.2 = w := by
  have fin : ∀ {f : Interp → Val}, MRes H s r f →
      (∀ I, meaning I (den I s) s.type op = some (f I)) →
      WF H r.1 ∧ Ext s r.1 ∧ (IsBool r.1 r.2 ∨ IsReal r.1 r.2) ∧
      ∀ I w, meaning I (den I s) s.type op = some w → den I r.1 r.2 = w := by
    intro f hm hf
    refine ⟨hm.wf, hm.ext, hm.typed, fun I w hw => ?_⟩
    rw [hf I] at hw
    cases hw
    exact hm.val I
  cases op with
  | fresh ty =>
    cases hr
    obtain ⟨h1, h2, h3, h4⟩ := fresh_wf h ht
    refine ⟨h1, h2, ?_, by intro I w hw; cases hw⟩
    cases ty with
    | null => exact absurd rfl ht
    | bool => exact Or.inl (type_of_entry h3)
    | real => exact Or.inr ⟨type_of_entry h3, h4⟩
  | rational q =>
    cases hr
    exact fin ((arithConstant_res h q).mres fun I => rfl) fun I => rfl
  | or as =>
    cases hr
    exact fin ((mkOr_res h ht).mres fun I => rfl) fun I => rfl
  | and as =>
    cases hr
    exact fin ((mkAnd_res h ht).mres fun I => rfl) fun I => rfl
  | implies a b =>
    cases hr
    exact fin ((mkImplies_res h ht.1 ht.2).mres fun I => rfl) fun I => rfl
  | xor a b =>
    cases hr
    exact fin ((mkXor_res h ht.1 ht.2).mres fun I => rfl) fun I => by
      show some (Val.b (denB I s a != denB I s b)) = _
      cases denB I s a <;> cases denB I s b <;> rfl
  | ite c t e =>
    obtain ⟨r', h1, h2, _⟩ := mkIte_res (H := H) h ht.1 ht.2
    have hr : s.mkIte H c t e = some r := hr
    rw [h1] at hr
    cases hr
    exact fin h2 fun I => rfl
  | eq a b => exact fin ((mkBinaryEq_some h ht hr).mres fun I => rfl) fun I => rfl
  | distinct as => exact fin ((mkDistinct_res h ht hr).mres fun I => rfl) fun I => rfl
  | plus as =>
    obtain ⟨r', h1, h2⟩ := mkPlus_res (H := H) h ht
    have hr : s.mkPlus H as = some r := hr
    rw [h1] at hr
    cases hr
    exact fin (h2.mres fun I => rfl) fun I => rfl
  | minus a b =>
    obtain ⟨r', h1, h2⟩ := mkMinus_res (H := H) h ht.1 ht.2
    have hr : s.mkMinus H a b = some r := hr
    rw [h1] at hr
    cases hr
    exact fin (h2.mres fun I => rfl) fun I => rfl
  | neg a =>
    obtain ⟨r', h1, h2⟩ := mkUnaryMinus_res (H := H) h ht
    have hr : s.mkUnaryMinus H a = some r := hr
    rw [h1] at hr
    cases hr
    exact fin (h2.mres fun I => rfl) fun I => rfl
  | times as => exact fin ((mkTimes_some h ht hr).mres fun I => rfl) fun I => rfl
  | divides a b =>
    have hr' : s.mkDivides H a b = some r := hr
    by_cases hc : s.isArithConst b = false ∨ s.constValue b = 0
    · unfold mkDivides at hr'
      rw [if_pos hc] at hr'
      cases hr'
    · rw [not_or] at hc
      obtain ⟨r', h1, h2⟩ := mkDivides_res (H := H) h ht.1 ht.2 (by simpa using hc.1) hc.2
      rw [h1] at hr'
      cases hr'
      exact fin (h2.mres fun I => rfl) fun I => rfl
  | geq a b =>
    obtain ⟨r', h1, h2⟩ := mkGeq_res (H := H) h ht.1 ht.2
    have hr : s.mkGeq H a b = some r := hr
    rw [h1] at hr
    cases hr
    exact fin (h2.mres fun I => rfl) fun I => rfl
  | leq a b =>
    obtain ⟨r', h1, h2⟩ := mkGeq_res (H := H) h ht.2 ht.1
    have hr : s.mkGeq H b a = some r := hr
    rw [h1] at hr
    cases hr
    exact fin (h2.mres fun I => rfl) fun I => rfl
  | lt a b =>
    obtain ⟨r', h1, h2⟩ := mkGeq_res (H := H) h ht.1 ht.2
    have hr : (s.mkGeq H a b).map (fun r => (r.1, r.2.opp)) = some r := hr
    rw [h1] at hr
    cases hr
    refine fin (h2.opp.mres fun I => rfl) fun I => ?_
    show some (Val.b (decide (denQ I s a < denQ I s b))) = some (Val.b (!decide (denQ I s a ≥ denQ I s b)))
    rw [← decide_not]
    congr 2
    exact decide_eq_decide.mpr not_le.symm
  | gt a b =>
    obtain ⟨r', h1, h2⟩ := mkGeq_res (H := H) h ht.2 ht.1
    have hr : (s.mkGeq H b a).map (fun r => (r.1, r.2.opp)) = some r := hr
    rw [h1] at hr
    cases hr
    refine fin (h2.opp.mres fun I => rfl) fun I => ?_
    show some (Val.b (decide (denQ I s a > denQ I s b))) = some (Val.b (!decide (denQ I s b ≥ denQ I s a)))
    rw [← decide_not]
    congr 2
    exact decide_eq_decide.mpr not_le.symm
  | app f as =>
    cases hr
    refine fin (mkApp_res h ht.1 ht.2.1 ht.2.2) fun I => ?_
    show (if s.type f = .bool then _ else _) = _
    split <;> rfl

theorem TReach.wf (h : TReach H s) : WF H s := by
  induction h with
  | init => exact init_wf H
  | step _ ht hr ih => exact (run_res ih ht hr).1

end Yaga

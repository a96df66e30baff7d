/-
C42: applying a defined function.
-/
import Verif.Proofs.Rewriter

namespace Yaga

open Spec TermTable

variable {H : TermHash} {s : TermTable}

/-- The bound value of a parameter is the value of its argument. -/
theorem substFind_zip (h : WF H s) (I : Interp) {params args : List Tm}
    (hty : List.Forall₂ (fun p a => p.isNeg = false ∧ s.kind p = .uninterpreted ∧
      ((IsBool s p ∧ IsBool s a) ∨ (IsReal s p ∧ IsReal s a))) params args) {b : Tm} (hb : b ∈ params) :
    ∃ a, substFind (params.zip args) b = some a ∧ s.type b = s.type a ∧
      den I s a = den (I.bind (params.zip (args.map (den I s)))) s b := by
  have hbp : b.isNeg = false ∧ s.kind b = .uninterpreted := by
    clear I
    induction hty with
    | nil => cases hb
    | cons h1 _ ih =>
      rcases List.mem_cons.mp hb with rfl | hb
      · exact ⟨h1.1, h1.2.1⟩
      · exact ih hb
  obtain ⟨e, he, hek⟩ := entry_of_kind (s := s) (t := b) (by rw [hbp.2]; decide)
  rw [hbp.2] at hek
  rw [h.den he hbp.1]
  have key : ∃ a, substFind (params.zip args) b = some a ∧
      ((IsBool s b ∧ IsBool s a) ∨ (IsReal s b ∧ IsReal s a)) ∧
      (((params.zip (args.map (den I s))).find? fun p => p.1.index == b.index).map Prod.snd) =
        some (den I s a) := by
    clear he hek
    induction hty with
    | nil => cases hb
    | @cons p a ps as h1 _ ih =>
      by_cases hpb : p = b
      · subst hpb
        exact ⟨a, by simp [substFind], h1.2.2, by simp⟩
      · have hb' : b ∈ ps := (List.mem_cons.mp hb).resolve_left fun e => hpb e.symm
        obtain ⟨a', g1, g2, g3⟩ := ih hb'
        refine ⟨a', ?_, g2, ?_⟩
        · unfold substFind at g1 ⊢
          rw [List.zip_cons_cons, List.find?_cons_of_neg (by simpa using hpb)]
          exact g1
        · rw [List.map_cons, List.zip_cons_cons, List.find?_cons_of_neg]
          · exact g3
          · have : p.index ≠ b.index := by
              intro hi
              apply hpb
              have h2 := h1.1
              have h3 := hbp.1
              unfold Tm.isNeg at h2 h3
              unfold Tm.index at hi
              simp only [decide_eq_false_iff_not] at h2 h3
              cases p; cases b
              simp only [Tm.mk.injEq] at *
              omega
            simpa using this
  obtain ⟨a, h1, h2, h3⟩ := key
  refine ⟨a, h1, ?_, ?_⟩
  · rcases h2 with h2 | h2
    · rw [show s.type b = .bool from h2.1, show s.type a = .bool from h2.2]
    · rw [h2.1.1, h2.2.1]
  obtain ⟨k, ty, d⟩ := e
  simp only at hek
  subst hek
  have hty' : s.type b = ty := type_of_entry he
  obtain ⟨w, hw, hw2⟩ := Option.map_eq_some_iff.mp h3
  unfold evalEntry Interp.bind
  simp only [hw, Option.map_some, Option.getD_some, hw2]
  rcases h2 with h2 | h2
  · rw [if_pos (by rw [← hty']; exact h2.1), h.den_bool h2.2]
    rfl
  · rw [if_neg (by rw [← hty', h2.1.1]; decide), den_real h h2.2]
    rfl

/-- C42, the part that holds: if the body of a defined function is itself one of the parameters, or contains
none of them, then applying the function to arguments of the right types succeeds and denotes the body in
the interpretation where the parameters have the values of the arguments. Missing: every other body
(`C42_false`). -/
theorem C42_substitution_partial (hs : TReach H s) {params args : List Tm} {body : Tm}
    (hty : List.Forall₂ (fun p a => p.isNeg = false ∧ s.kind p = .uninterpreted ∧
      ((IsBool s p ∧ IsBool s a) ∨ (IsReal s p ∧ IsReal s a))) params args)
    (hb : body ∈ params ∨ ∀ p ∈ params, ¬ OccursIn s p body) {fuel : Nat}
    (hf : (s.args body).length + 2 ≤ fuel) :
    ∃ t, resolveApp H fuel s params body args = some (s, t) ∧
      ∀ I, den I s t = den (I.bind (params.zip (args.map (den I s)))) s body := by
  have hlen : params.length = args.length := hty.length_eq
  unfold resolveApp
  rw [if_pos hlen, rewriteTerm_root _ _ _ _ hf]
  rcases hb with hb | hb
  · have h0 := hs.wf
    have hbp : body.isNeg = false ∧ s.kind body = .uninterpreted := by
      clear hf hs h0 hlen
      induction hty with
      | nil => cases hb
      | cons h1 _ ih =>
        rcases List.mem_cons.mp hb with rfl | hb
        · exact ⟨h1.1, h1.2.1⟩
        · exact ih hb
    obtain ⟨a, g1, g2, _⟩ := substFind_zip h0 ⟨fun _ => false, fun _ => 0, fun _ _ => false, fun _ _ => 0⟩ hty hb
    have e : varSubstitute s (params.zip args) body = a := by
      unfold varSubstitute
      rw [if_pos hbp, g1]
      rfl
    simp only [e]
    have hden : ∀ I, den I s a = den (I.bind (params.zip (args.map (den I s)))) s body := by
      intro I
      obtain ⟨a', k1, _, k3⟩ := substFind_zip h0 I hty hb
      rw [g1] at k1
      cases k1
      exact k3
    by_cases hab : a = body
    · rw [if_pos hab]
      exact ⟨body, rfl, fun I => by rw [← hden I, hab]⟩
    · rw [if_neg hab, if_pos g2]
      exact ⟨a, rfl, hden⟩
  · have e : varSubstitute s (params.zip args) body = body := by
      unfold varSubstitute
      split
      · have : substFind (params.zip args) body = none := by
          unfold substFind
          rw [Option.map_eq_none_iff, List.find?_eq_none]
          intro p hp hx
          exact hb p.1 (List.of_mem_zip hp).1 (.here (by rw [beq_iff_eq.mp hx]))
        rw [this]
        rfl
      · rfl
    rw [if_pos e]
    refine ⟨body, rfl, fun I => ?_⟩
    rw [den_congr_occurs hs.wf I _ _ body rfl]
    intro p hp
    exact hb p.1 (List.of_mem_zip hp).1

/-- What the code does for every body: parameters are replaced only if the body is nothing but a parameter.
(`Term_rewriter.h:44` visits a child only if it was visited before.) -/
theorem C42_only_root {params args : List Tm} {body : Tm} {fuel : Nat}
    (hf : (s.args body).length + 2 ≤ fuel) {r : TermTable × Tm}
    (hr : resolveApp H fuel s params body args = some r) (hb : body ∉ params) : r = (s, body) := by
  unfold resolveApp at hr
  split at hr
  · rw [rewriteTerm_root _ _ _ _ hf] at hr
    have e : varSubstitute s (params.zip args) body = body := by
      unfold varSubstitute
      split
      · have : substFind (params.zip args) body = none := by
          unfold substFind
          rw [Option.map_eq_none_iff, List.find?_eq_none]
          intro p hp hx
          exact hb (beq_iff_eq.mp hx ▸ (List.of_mem_zip hp).1)
        rw [this]
        rfl
      · rfl
    rw [if_pos e] at hr
    cases hr
    rfl
  · cases hr

theorem forall₂_mem_right' {α β : Type} {R : α → β → Prop} {l : List α} {l' : List β}
    (h : List.Forall₂ R l l') {b : β} (hb : b ∈ l') : ∃ a ∈ l, R a b := by
  induction h with
  | nil => cases hb
  | cons h1 _ ih =>
    rcases List.mem_cons.mp hb with rfl | hb
    · exact ⟨_, by simp, h1⟩
    · obtain ⟨a, g1, g2⟩ := ih hb
      exact ⟨a, List.mem_cons_of_mem _ g1, g2⟩

/-- C42, rebuilding a term from new arguments (`mk_term(Kind, span)`), which the rewriter does when an
argument changed: the result denotes what the old term denotes when the old arguments have the values of the
new ones. Missing: applications (`C42_rebuild_app_false`). -/
theorem C42_rebuild_partial (hs : TReach H s) {t : Tm} (ht : t.isNeg = false) (hk : s.kind t ≠ .app)
    {args : List Tm} (hty : List.Forall₂ (fun a b => (IsBool s a ∧ IsBool s b) ∨ (IsReal s a ∧ IsReal s b))
      (s.args t) args) {r : TermTable × Tm} (hr : mkTermKind H s (s.kind t) args = some r) (I J : Interp)
    (hv : List.Forall₂ (fun a b => den J s a = den I s b) (s.args t) args) :
    den I r.1 r.2 = den J s t := by
  have h := hs.wf
  have hkr : s.kind t ≠ .reserved := by
    intro e
    rw [e] at hr
    cases hr
  obtain ⟨e, he, hek⟩ := entry_of_kind hkr
  have hd := descr_of_entry he
  rw [h.den he ht]
  have hsh := h.shape _ _ he
  have hargs : s.args t = s.allArgs t := by unfold TermTable.args; rw [if_neg hk]
  rw [hargs] at hty hv
  unfold TermTable.allArgs at hty hv
  rw [hd] at hty hv
  rw [← hek] at hr hk hkr
  obtain ⟨k, ty, d⟩ := e
  cases k <;> simp only [Shape] at hsh
  case reserved => exact absurd rfl hkr
  case constant => cases hr
  case arithConst => cases hr
  case uninterpreted => cases hr
  case app => exact absurd rfl hk
  case ite =>
    obtain ⟨-, c, a, b, rfl, ⟨hc, -⟩, ha, hb⟩ := hsh
    simp only [List.forall₂_cons_left_iff, List.forall₂_nil_left_iff] at hty
    obtain ⟨c', _, t1, ⟨a', _, t2, ⟨b', _, t3, rfl, rfl⟩, rfl⟩, rfl⟩ := hty
    simp only [List.forall₂_cons, List.Forall₂.nil, and_true] at hv
    obtain ⟨v1, v2, v3⟩ := hv
    have tc : IsBool s c' := by
      rcases t1 with t1 | t1
      · exact t1.2
      · exact absurd (hc.symm.trans t1.1.1) (by decide)
    have tr : ∀ {x y : Tm}, IsReal s x → ((IsBool s x ∧ IsBool s y) ∨ (IsReal s x ∧ IsReal s y)) → IsReal s y := by
      intro x y hx hxy
      rcases hxy with g | g
      · exact absurd (hx.1.symm.trans g.1) (by decide)
      · exact g.2
    obtain ⟨r', g1, g2, -⟩ := mkIte_res (H := H) h tc (Or.inr ⟨tr ha t2, tr hb t3⟩)
    have : r = r' := by
      have := hr.symm.trans g1
      exact Option.some.inj this
    subst this
    rw [g2.val I]
    simp only [evalEntry, v1, v2, v3]
  case or =>
    obtain ⟨-, as, rfl, -, hb⟩ := hsh
    have hb' : ∀ a ∈ args, IsBool s a := by
      intro a ha
      obtain ⟨x, hx, hxa⟩ := forall₂_mem_right' hty ha
      rcases hxa with g | g
      · exact g.2
      · exact absurd ((hb x hx).symm.trans g.1.1) (by decide)
    have g := mkOr_res (H := H) h hb'
    cases hr
    rw [g.wf.den_bool g.isBool, g.val I]
    simp only [evalEntry]
    congr 1
    change List.Forall₂ _ as args at hv
    clear g hb hb' hty hd he hkr hk hek
    induction hv with
    | nil => rfl
    | cons v1 _ ih => simp only [List.any_cons, ih, denB, v1]
  case arithEq =>
    obtain ⟨-, a, rfl, ha, -⟩ := hsh
    simp only [List.forall₂_cons_left_iff, List.forall₂_nil_left_iff] at hty
    obtain ⟨a', _, t1, rfl, rfl⟩ := hty
    simp only [List.forall₂_cons, List.Forall₂.nil, and_true] at hv
    have v1 := hv
    have ta : IsReal s a' := by
      rcases t1 with g | g
      · exact absurd (ha.1.symm.trans g.1) (by decide)
      · exact g.2
    replace hr : s.mkArithEq H a' Tm.zero = some r := hr
    by_cases hsp : a' = Tm.zero ∨ ¬ SamePoly s a' Tm.zero
    · obtain ⟨r', g1, g2⟩ := mkArithEq_res (H := H) h ta h.zero_real hsp
      have : r = r' := Option.some.inj (hr.symm.trans g1)
      subst this
      rw [g2.wf.den_bool g2.isBool, g2.val I]
      rw [h.denQ_zero]
      simp only [evalEntry, v1, denQ]
      exact congrArg _ (decide_eq_decide.mpr Iff.rfl)
    · push Not at hsp
      rw [mkArithEq_fails h ta h.zero_real hsp.1 hsp.2] at hr
      cases hr
  case arithGe =>
    obtain ⟨-, a, rfl, ha, -⟩ := hsh
    simp only [List.forall₂_cons_left_iff, List.forall₂_nil_left_iff] at hty
    obtain ⟨a', _, t1, rfl, rfl⟩ := hty
    simp only [List.forall₂_cons, List.Forall₂.nil, and_true] at hv
    have v1 := hv
    have ta : IsReal s a' := by
      rcases t1 with g | g
      · exact absurd (ha.1.symm.trans g.1) (by decide)
      · exact g.2
    obtain ⟨r', g1, g2⟩ := mkGeq_res (H := H) h ta h.zero_real
    have : r = r' := Option.some.inj (hr.symm.trans g1)
    subst this
    rw [g2.wf.den_bool g2.isBool, g2.val I]
    rw [h.denQ_zero]
    simp only [evalEntry, v1, denQ, ge_iff_le]
  case arithBinEq =>
    obtain ⟨-, a, b, rfl, ha, hb, -⟩ := hsh
    simp only [List.forall₂_cons_left_iff, List.forall₂_nil_left_iff] at hty
    obtain ⟨a', _, t1, ⟨b', _, t2, rfl, rfl⟩, rfl⟩ := hty
    simp only [List.forall₂_cons, List.Forall₂.nil, and_true] at hv
    obtain ⟨v1, v2⟩ := hv
    have tr : ∀ {x y : Tm}, IsReal s x → ((IsBool s x ∧ IsBool s y) ∨ (IsReal s x ∧ IsReal s y)) → IsReal s y := by
      intro x y hx hxy
      rcases hxy with g | g
      · exact absurd (hx.1.symm.trans g.1) (by decide)
      · exact g.2
    replace hr : s.mkArithEq H a' b' = some r := hr
    by_cases hsp : a' = b' ∨ ¬ SamePoly s a' b'
    · obtain ⟨r', g1, g2⟩ := mkArithEq_res (H := H) h (tr ha t1) (tr hb t2) hsp
      have : r = r' := Option.some.inj (hr.symm.trans g1)
      subst this
      rw [g2.wf.den_bool g2.isBool, g2.val I]
      simp only [evalEntry, v1, v2, denQ]
      exact congrArg _ (decide_eq_decide.mpr Iff.rfl)
    · push Not at hsp
      rw [mkArithEq_fails h (tr ha t1) (tr hb t2) hsp.1 hsp.2] at hr
      cases hr
  case product =>
    obtain ⟨-, c, x, q, rfl, hcn, hc, -, hx, -⟩ := hsh
    have hcr : IsReal s c := ⟨type_of_entry hc, hcn⟩
    have tr : ∀ {x y : Tm}, IsReal s x → ((IsBool s x ∧ IsBool s y) ∨ (IsReal s x ∧ IsReal s y)) → IsReal s y := by
      intro x y hx hxy
      rcases hxy with g | g
      · exact absurd (hx.1.symm.trans g.1) (by decide)
      · exact g.2
    simp only [List.forall₂_cons_left_iff, List.forall₂_nil_left_iff] at hty
    obtain ⟨c', _, t1, ⟨x', _, t2, rfl, rfl⟩, rfl⟩ := hty
    simp only [List.forall₂_cons, List.Forall₂.nil, and_true] at hv
    obtain ⟨v1, v2⟩ := hv
    have g := mkTimes_some (H := H) h (as := [c', x']) (by
      intro a ha
      simp only [List.mem_cons, List.not_mem_nil, or_false] at ha
      rcases ha with rfl | rfl
      · exact tr hcr t1
      · exact tr hx t2) hr
    rw [den_real g.wf g.isReal, g.val I]
    simp only [evalEntry, v1, v2, denQ, List.map_cons, List.map_nil, List.prod_cons, List.prod_nil, mul_one]
  case poly =>
    obtain ⟨-, as, p, rfl, -, -, hm⟩ := hsh
    have hb' : ∀ a ∈ args, IsReal s a := by
      intro a ha
      obtain ⟨x, hx, hxa⟩ := forall₂_mem_right' hty ha
      rcases hxa with g | g
      · obtain ⟨m, -, hm⟩ := forall₂_mem_right' hm hx
        exact absurd ((MonoTerm.real hm).1.symm.trans g.1) (by decide)
      · exact g.2
    obtain ⟨r', g1, g⟩ := mkPlus_res (H := H) h hb'
    have : r = r' := Option.some.inj (hr.symm.trans g1)
    subst this
    rw [den_real g.wf g.isReal, g.val I]
    simp only [evalEntry]
    congr 1
    change List.Forall₂ _ as args at hv
    clear g hb' hty hd he hm g1 hr hkr hk hek
    induction hv with
    | nil => rfl
    | cons v1 _ ih => simp only [List.map_cons, List.sum_cons, ih, denQ, v1]

namespace C42Example

/-- Hash functions for the example. -/
def h0 : TermHash := ⟨fun _ _ => 0, fun _ _ => 0, fun _ => 0⟩

/-- The terms `x`, `y`, `1`, `x + 1`. -/
def ops : List MgrOp := [.fresh .real, .fresh .real, .rational 1, .plus [⟨6⟩, ⟨10⟩]]

def tables : List (Option (TermTable × Tm)) :=
  ops.scanl (fun r op => r.bind fun r => op.run h0 r.1) (some (TermTable.init h0, Tm.tt))

def tab (i : Nat) : TermTable := ((tables.getD i none).map Prod.fst).getD (TermTable.init h0)

theorem reach : TReach h0 (tab 4) := by
  have r1 : TReach h0 (tab 1) := TReach.step (op := .fresh .real) (r := (tab 1, ⟨6⟩)) .init (by unfold MgrOp.Typed; decide) (by decide +kernel)
  have r2 : TReach h0 (tab 2) := TReach.step (op := .fresh .real) (r := (tab 2, ⟨8⟩)) r1 (by unfold MgrOp.Typed; decide) (by decide +kernel)
  have r3 : TReach h0 (tab 3) := TReach.step (op := .rational 1) (r := (tab 3, ⟨10⟩)) r2 trivial (by decide +kernel)
  exact TReach.step (op := .plus [⟨6⟩, ⟨10⟩]) (r := (tab 4, ⟨12⟩)) r3 (by unfold MgrOp.Typed; decide +kernel) (by decide +kernel)

end C42Example

open C42Example in
/-- C42 is false: with `(define-fun f ((x Real)) Real (+ x 1))`, the term `(f y)` is `x + 1` with the formal
parameter `x`, whatever the values are. -/
theorem C42_false : ∃ (H : TermHash) (s : TermTable) (x y body : Tm), TReach H s ∧
    IsReal s x ∧ s.kind x = .uninterpreted ∧ IsReal s y ∧ IsReal s body ∧
    (∀ I, den I s body = .q (denQ I s x + 1)) ∧
    ∀ fuel ≥ 10, resolveApp H fuel s [x] body [y] = some (s, body) ∧
      ∃ I, den I s body ≠ den (I.bind [(x, den I s y)]) s body := by
  refine ⟨h0, tab 4, ⟨6⟩, ⟨8⟩, ⟨12⟩, reach, by decide +kernel, by decide +kernel, by decide +kernel,
    by decide +kernel, ?_, ?_⟩
  · intro I
    have hw := reach.wf
    rw [hw.den (t := ⟨12⟩) (e := ⟨.poly, .real, .comp [⟨10⟩, ⟨6⟩]⟩) (by decide +kernel) rfl]
    simp only [evalEntry, List.map_cons, List.map_nil, List.sum_cons, List.sum_nil, add_zero]
    rw [hw.den (t := ⟨10⟩) (e := ⟨.arithConst, .real, .rat 1⟩) (by decide +kernel) rfl]
    simp only [evalEntry, Val.num, denQ]
    rw [add_comm]
  · intro fuel hf
    constructor
    · have hl : ((tab 4).args ⟨12⟩).length + 2 ≤ 10 := by decide +kernel
      unfold resolveApp
      rw [if_pos (by simp), rewriteTerm_root _ _ _ _ (le_trans hl hf), if_pos (by decide +kernel)]
    · exact ⟨⟨fun _ => false, fun i => if i = 3 then 0 else 5, fun _ _ => false, fun _ _ => 0⟩,
        by decide +kernel⟩

open C42Example in
/-- Hypotheses of the partial theorem: the body `x`, and the body `1` (in which `x` does not occur). -/
example : List.Forall₂ (fun p a : Tm => p.isNeg = false ∧ (tab 4).kind p = .uninterpreted ∧
      ((IsBool (tab 4) p ∧ IsBool (tab 4) a) ∨ (IsReal (tab 4) p ∧ IsReal (tab 4) a))) [⟨6⟩] [⟨12⟩] ∧
    (⟨6⟩ : Tm) ∈ [(⟨6⟩ : Tm)] ∧ (∀ p ∈ [(⟨6⟩ : Tm)], ¬ OccursIn (tab 4) p ⟨10⟩) ∧
    resolveApp h0 5 (tab 4) [⟨6⟩] ⟨6⟩ [⟨12⟩] = some (tab 4, ⟨12⟩) := by
  refine ⟨.cons (by decide +kernel) .nil, by simp, ?_, by decide +kernel⟩
  intro p hp ho
  rw [List.mem_singleton.mp hp] at ho
  cases ho with
  | here h => revert h; decide
  | arg h _ =>
    have : (tab 4).allArgs ⟨10⟩ = [] := by decide +kernel
    rw [this] at h
    cases h

open C42Example in
/-- Hypotheses of `C42_rebuild_partial`: `x + 1` is rebuilt as `y + 1`. -/
example : TReach h0 (tab 4) ∧ (⟨12⟩ : Tm).isNeg = false ∧ (tab 4).kind ⟨12⟩ ≠ .app ∧
    List.Forall₂ (fun a b => (IsBool (tab 4) a ∧ IsBool (tab 4) b) ∨ (IsReal (tab 4) a ∧ IsReal (tab 4) b))
      ((tab 4).args ⟨12⟩) [⟨10⟩, ⟨8⟩] ∧
    (mkTermKind h0 (tab 4) ((tab 4).kind ⟨12⟩) [⟨10⟩, ⟨8⟩]).isSome = true := by
  refine ⟨reach, rfl, by decide +kernel, ?_, by decide +kernel⟩
  rw [show (tab 4).args ⟨12⟩ = [⟨10⟩, ⟨6⟩] by decide +kernel]
  exact .cons (by decide +kernel) (.cons (by decide +kernel) .nil)

namespace C42Example

/-- The terms `x`, `f`, `f(x)`. -/
def appOps : List MgrOp := [.fresh .real, .fresh .real, .app ⟨8⟩ [⟨6⟩]]

def appTables : List (Option (TermTable × Tm)) :=
  appOps.scanl (fun r op => r.bind fun r => op.run h0 r.1) (some (TermTable.init h0, Tm.tt))

def appTab (i : Nat) : TermTable := ((appTables.getD i none).map Prod.fst).getD (TermTable.init h0)

theorem appReach : TReach h0 (appTab 3) := by
  have r1 : TReach h0 (appTab 1) := TReach.step (op := .fresh .real) (r := (appTab 1, ⟨6⟩)) .init (by unfold MgrOp.Typed; decide) (by decide +kernel)
  have r2 : TReach h0 (appTab 2) := TReach.step (op := .fresh .real) (r := (appTab 2, ⟨8⟩)) r1 (by unfold MgrOp.Typed; decide) (by decide +kernel)
  exact TReach.step (op := .app ⟨8⟩ [⟨6⟩]) (r := (appTab 3, ⟨10⟩)) r2 (by unfold MgrOp.Typed; decide +kernel) (by decide +kernel)

end C42Example

open C42Example in
/-- Rebuilding an application is wrong even if no argument changes: `f(x)` becomes the application of `x` to
no arguments, because `get_args` leaves the function symbol out (src/terms/Terms.cpp:307-328) and `mk_app`
takes the first argument for the symbol (src/terms/Term_manager.cpp:281-284). -/
theorem C42_rebuild_app_false : ∃ (H : TermHash) (s : TermTable) (t : Tm) (r : TermTable × Tm) (I : Interp),
    TReach H s ∧ IsReal s t ∧ s.kind t = .app ∧ mkTermKind H s (s.kind t) (s.args t) = some r ∧
    den I r.1 r.2 ≠ den I s t := by
  refine ⟨h0, appTab 3, ⟨10⟩, (mkTermKind h0 (appTab 3) .app ((appTab 3).args ⟨10⟩)).getD (appTab 3, ⟨10⟩),
    ⟨fun _ => false, fun _ => 0, fun _ _ => false, fun f _ => f⟩, appReach, by decide +kernel, by decide +kernel,
    by decide +kernel, by decide +kernel⟩

#print axioms C42_rebuild_partial
#print axioms C42_rebuild_app_false
#print axioms C42_substitution_partial
#print axioms C42_only_root
#print axioms C42_false

end Yaga

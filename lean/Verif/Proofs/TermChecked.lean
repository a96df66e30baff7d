/-
The checked functions of the term table and the term manager return what the unchecked ones do.
-/
import Verif.Model.TermChecked
import Verif.Proofs.TermOps

namespace Yaga

open Spec TermTable

variable {H : TermHash} {s : TermTable}

namespace TermTable

@[simp] theorem need_true : need true = some () := rfl
@[simp] theorem need_false : need false = none := rfl

theorem kindC_eq {t : Tm} {e : TEntry} (h : s.entry t = some e) : s.kindC t = some (s.kind t) := by
  simp [kindC, kind, h]

theorem typeC_eq {t : Tm} {e : TEntry} (h : s.entry t = some e) : s.typeC t = some (s.type t) := by
  simp [typeC, type, h]

/-- The class of the descriptor that belongs to a kind. -/
def Cls (e : TEntry) : Prop :=
  match e.kind with
  | .reserved | .uninterpreted => e.descr = .none
  | .constant => ∃ i, e.descr = .const i
  | .arithConst => ∃ q, e.descr = .rat q
  | _ => ∃ as, e.descr = .comp as

theorem cls_of_shape {e : TEntry} (h : Shape s e) : Cls e := by
  obtain ⟨k, ty, d⟩ := e
  cases k <;> simp only [Shape, Cls] at h ⊢
  · exact h.2
  · exact ⟨0, h.2⟩
  · exact h.2
  · exact h.2
  · obtain ⟨-, c, t, u, h, -⟩ := h; exact ⟨_, h⟩
  · obtain ⟨-, f, as, h, -⟩ := h; exact ⟨_, h⟩
  · obtain ⟨-, as, h, -⟩ := h; exact ⟨_, h⟩
  · obtain ⟨-, t, h, -⟩ := h; exact ⟨_, h⟩
  · obtain ⟨-, t, h, -⟩ := h; exact ⟨_, h⟩
  · obtain ⟨-, a, b, h, -⟩ := h; exact ⟨_, h⟩
  · obtain ⟨-, c, x, q, h, -⟩ := h; exact ⟨_, h⟩
  · obtain ⟨-, as, p, h, -⟩ := h; exact ⟨_, h⟩

theorem entry_cls (h : WF H s) {t : Tm} {e : TEntry} (he : s.entry t = some e) : Cls e :=
  cls_of_shape (h.shape _ _ he)

theorem keyEqualC_eq {e f : TEntry} (hc : Consed e) (he : Cls e) {t : Tm} (ht : s.entry t = some f)
    (hf : Cls f) : s.keyEqualC e t = some (decide (s.entry t = some e)) := by
  obtain ⟨k, ty, d⟩ := e
  obtain ⟨k', ty', d'⟩ := f
  simp only [keyEqualC, ht]
  by_cases hk : k' = k
  · subst hk
    by_cases hty : ty' = ty
    · subst hty
      cases k' <;> simp only [Cls, Consed] at he hf hc <;> try (exact absurd rfl hc.1)
      all_goals first
        | (obtain ⟨i, rfl⟩ := he; obtain ⟨j, rfl⟩ := hf; simp; done)
        | (obtain ⟨i, rfl⟩ := he; obtain ⟨j, rfl⟩ := hf; by_cases hij : j = i <;> simp [hij])
        | (exact absurd rfl hc.2)
    · simp [hty]
  · simp [hk]

theorem findC_eq (h : WF H s) {e : TEntry} (hc : Consed e) (he : Cls e) (hash : Nat) :
    ∀ ks : List (Nat × Tm), (∀ k ∈ ks, k ∈ s.known) →
      s.findC hash e ks = some ((ks.find? (fun k => k.1 == hash && decide (s.entry k.2 = some e))).map Prod.snd)
  | [], _ => rfl
  | k :: ks, hk => by
    have ih := findC_eq h hc he hash ks fun a ha => hk a (by simp [ha])
    obtain ⟨i, f, hi, hf, -⟩ := h.hc.sound k (hk k (by simp))
    have hf' : s.entry k.2 = some f := by rw [hi, entry_positive]; exact hf
    have hq := keyEqualC_eq hc he hf' (entry_cls h hf')
    by_cases h1 : k.1 = hash
    · by_cases h2 : s.entry k.2 = some e
      · simp [findC, h1, hq, h2]
      · simp [findC, h1, hq, h2, ih]
    · simp [findC, h1, ih]

theorem getC_eq (h : WF H s) {e : TEntry} (hc : Consed e) (he : Cls e) (hash : Nat) :
    s.getC hash e = some (s.get hash e) := by
  rw [getC, findC_eq h hc he hash _ fun _ hk => hk, get]
  cases hf : s.known.find? (fun k => k.1 == hash && decide (s.entry k.2 = some e)) with
  | some k => simp
  | none =>
    have hn : s.known.contains (hash, Tm.positive s.terms.length) = false := by
      rw [Bool.eq_false_iff]
      intro hm
      obtain ⟨i, f, hi, hf, -⟩ := h.hc.sound _ (List.contains_iff_mem.1 hm)
      have := Tm.positive_inj hi
      have h2 := (List.getElem?_eq_some_iff.1 hf).1
      omega
    have hn' : (hash, Tm.positive s.terms.length) ∉ s.known := fun hm => by
      rw [List.contains_iff_mem.2 hm] at hn; cases hn
    simp [construct, hn']

/-- The kinds of composite terms. -/
def CompKind (k : Kind) : Prop :=
  k ≠ .reserved ∧ k ≠ .uninterpreted ∧ k ≠ .constant ∧ k ≠ .arithConst

theorem compositeC_eq (h : WF H s) {k : Kind} (hk : CompKind k) (ty : Ty) (as : List Tm) :
    s.compositeC H k ty as = some (s.composite H k ty as) := by
  refine getC_eq h ⟨hk.1, hk.2.1⟩ ?_ _
  obtain ⟨h1, h2, h3, h4⟩ := hk
  cases k <;> first | exact ⟨as, rfl⟩ | (exfalso; simp at h1 h2 h3 h4)

theorem arithConstantC_eq (h : WF H s) (q : ℚ) : s.arithConstantC H q = some (s.arithConstant H q) := by
  refine getC_eq h ⟨by simp, by simp⟩ ?_ _
  exact ⟨q, rfl⟩

theorem orTermC_eq (h : WF H s) (as : List Tm) : s.orTermC H as = some (s.orTerm H as) := by
  unfold orTermC orTerm
  exact compositeC_eq h (by unfold CompKind; decide) _ _

theorem real_entry {t : Tm} (h : IsReal s t) : ∃ e, s.entry t = some e := by
  obtain ⟨e, he, -⟩ := entry_of_type (s := s) (t := t) (by rw [h.1]; nofun)
  exact ⟨e, he⟩

theorem bool_entry {t : Tm} (h : IsBool s t) : ∃ e, s.entry t = some e := by
  obtain ⟨e, he, -⟩ := entry_of_type (s := s) (t := t) (by rw [h]; nofun)
  exact ⟨e, he⟩

/-! ### Boolean terms -/

theorem mkBinaryOrC_eq (h : WF H s) (x y : Tm) : s.mkBinaryOrC H x y = some (s.mkBinaryOr H x y) := by
  unfold mkBinaryOrC mkBinaryOr
  simp only [orTermC_eq h, apply_ite some]

theorem mkBinaryAndC_eq (h : WF H s) (x y : Tm) : s.mkBinaryAndC H x y = some (s.mkBinaryAnd H x y) := by
  unfold mkBinaryAndC mkBinaryAnd
  simp only [mkBinaryOrC_eq h, Option.map_some]

theorem mkImpliesC_eq (h : WF H s) (x y : Tm) : s.mkImpliesC H x y = some (s.mkImplies H x y) := mkBinaryOrC_eq h _ _

theorem mkIffC_eq (h : WF H s) {x y : Tm} (hx : IsBool s x) (hy : IsBool s y) :
    s.mkIffC H x y = some (s.mkIff H x y) := by
  have h1 := mkImplies_res h hx hy
  have h2 := mkImplies_res h1.wf (hy.ext h1.ext) (hx.ext h1.ext)
  unfold mkIffC mkIff
  simp only [mkImpliesC_eq h, mkImpliesC_eq h1.wf, mkBinaryAndC_eq h2.wf, Option.bind_some]

theorem mkXorC_eq (h : WF H s) {x y : Tm} (hx : IsBool s x) (hy : IsBool s y) :
    s.mkXorC H x y = some (s.mkXor H x y) := by
  have h1 := mkBinaryOr_res h hx hy
  have h2 := mkBinaryAnd_res h1.wf (hx.ext h1.ext) (hy.ext h1.ext)
  unfold mkXorC mkXor
  simp only [mkBinaryOrC_eq h, mkBinaryAndC_eq h1.wf, mkBinaryAndC_eq h2.wf, Option.bind_some]

theorem mkBoolIteGeneralC_eq (h : WF H s) {c t e : Tm} (hc : IsBool s c) (ht : IsBool s t) (he : IsBool s e) :
    s.mkBoolIteGeneralC H c t e = some (s.mkBoolIteGeneral H c t e) := by
  unfold mkBoolIteGeneralC mkBoolIteGeneral
  have hc' : IsBool s (if c.isNeg then c.opp else c) := by split; exacts [hc.opp, hc]
  have ht' : IsBool s (if c.isNeg then e else t) := by split; exacts [he, ht]
  have he' : IsBool s (if c.isNeg then t else e) := by split; exacts [ht, he]
  have h1 := mkImplies_res h hc' ht'
  have h2 := mkImplies_res h1.wf (hc'.ext h1.ext).opp (he'.ext h1.ext)
  simp only [mkImpliesC_eq h, mkImpliesC_eq h1.wf, mkBinaryAndC_eq h2.wf, Option.bind_some]

theorem mkBoolIteC_eq (h : WF H s) {c t e : Tm} (hc : IsBool s c) (ht : IsBool s t) (he : IsBool s e) :
    s.mkBoolIteC H c t e = some (s.mkBoolIte H c t e) := by
  unfold mkBoolIteC mkBoolIte
  simp only [mkBinaryOrC_eq h, mkBinaryAndC_eq h, mkIffC_eq h hc ht, mkBoolIteGeneralC_eq h hc ht he, apply_ite some]

theorem orLoopC_eq : ∀ (cs : List Tm) (prev : Tm) (acc : List Tm), (prev = Tm.ff ∨ 4 ≤ prev.x) →
    (prev :: cs).Pairwise (fun a b => a.x ≤ b.x) → orLoopC cs prev acc = some (orLoop cs prev acc)
  | [], _, _, _, _ => rfl
  | c :: cs, prev, acc, hp, hs => by
    have hpc : prev.x ≤ c.x := (List.pairwise_cons.1 hs).1 c (by simp)
    have hrest : (c :: cs).Pairwise (fun a b => a.x ≤ b.x) := (List.pairwise_cons.1 hs).2
    unfold orLoopC orLoop
    by_cases h1 : prev = c
    · subst h1
      simp only [ne_eq, not_true_eq_false, if_false]
      exact orLoopC_eq cs prev acc hp hrest
    · have h4 : 4 ≤ c.x := by
        rcases hp with rfl | hp
        · have : c.x ≠ 3 := fun h => h1 (by cases c; simp only at h; subst h; rfl)
          have h3 : Tm.ff.x = 3 := rfl
          omega
        · omega
      have ht : c ≠ Tm.tt := fun h => by rw [h] at h4; exact absurd h4 (by decide)
      have hf : c ≠ Tm.ff := fun h => by rw [h] at h4; exact absurd h4 (by decide)
      by_cases h2 : c = prev.opp
      · simp only [ne_eq, h1, not_false_eq_true, if_true, if_pos h2]
      · simp only [ne_eq, h1, not_false_eq_true, if_true, h2, if_false, ht, hf, decide_true, Bool.and_true, need_true,
          Option.bind_some]
        exact orLoopC_eq cs c _ (.inr h4) hrest

theorem bool_two_le (h : WF H s) {t : Tm} (ht : IsBool s t) : 2 ≤ t.x := by
  by_contra hlt
  have h0 : t.index = 0 := by
    unfold Tm.index
    omega
  have : s.type t = .null := by
    have := type_of_entry (s := s) (t := t) (e := ⟨.reserved, .null, .none⟩) (by unfold entry; rw [h0]; exact h.zero_null)
    exact this
  rw [ht] at this
  cases this

theorem mkOrC_eq (h : WF H s) {as : List Tm} (hb : ∀ a ∈ as, IsBool s a) : s.mkOrC H as = some (s.mkOr H as) := by
  have hs := sortTm_pairwise as
  have hm : ∀ a ∈ sortBy Tm.lt as, IsBool s a := fun a ha => hb a ((mem_sortBy _ _ _).1 ha)
  unfold mkOrC mkOr
  cases hl : sortBy Tm.lt as with
  | nil => rfl
  | cons first rest =>
    rw [hl] at hs hm
    by_cases h1 : first = Tm.tt
    · simp [h1]
    · have hx : first = Tm.ff ∨ 4 ≤ first.x := by
        have h2 := bool_two_le h (hm first (by simp))
        by_cases h3 : first.x = 3
        · left; cases first; simp only at h3; subst h3; rfl
        · right
          have : first.x ≠ 2 := fun h => h1 (by cases first; simp only at h; subst h; rfl)
          omega
      simp only [h1, if_false, orLoopC_eq rest first _ hx hs, Option.bind_some]
      split <;> rename_i h2
      · rw [h2]
      · rw [h2]
        simp only [orTermC_eq h, apply_ite some]

theorem mkAndC_eq (h : WF H s) {as : List Tm} (hb : ∀ a ∈ as, IsBool s a) : s.mkAndC H as = some (s.mkAnd H as) := by
  unfold mkAndC mkAnd
  rw [mkOrC_eq h fun a ha => ?_]
  · rfl
  · obtain ⟨b, hb', rfl⟩ := List.mem_map.1 ha
    exact (hb b hb').opp

/-! ### Arithmetic terms -/

theorem constValueC_entry {t : Tm} {q : ℚ} (h : s.entry t = some ⟨.arithConst, .real, .rat q⟩) :
    s.constValueC t = some q := by
  unfold constValueC
  simp only [kindC_eq h, kind_of_entry h, descr_of_entry h, Option.bind_some, decide_true, need_true]

theorem product_argsC {t c x : Tm} {q : ℚ} (h : s.entry t = some ⟨.product, .real, .comp [c, x]⟩)
    (hc : s.entry c = some ⟨.arithConst, .real, .rat q⟩) :
    s.varOfProductC t = some x ∧ s.coeffOfProductC t = some q := by
  have ha : s.argsC .product t = some [c, x] := by
    unfold argsC
    simp only [kindC_eq h, kind_of_entry h, descr_of_entry h, Option.bind_some, decide_true, need_true]
  unfold varOfProductC coeffOfProductC
  rw [ha]
  simp [constValueC_entry hc]

theorem varLike_entry {t : Tm} (h : VarLike s t) : ∃ e, s.entry t = some e := by
  obtain ⟨e, he, -⟩ := entry_of_kind (s := s) (t := t) (by rcases h with h | h | h <;> rw [h] <;> nofun)
  exact ⟨e, he⟩

theorem termToPolyC_eq (h : WF H s) : ∀ (fuel : Nat) {t : Tm}, IsReal s t →
    s.termToPolyC fuel t = s.termToPoly fuel t
  | 0, _, _ => rfl
  | fuel + 1, t, ht => by
    unfold termToPolyC termToPoly
    rcases real_cases h ht with ⟨q, he⟩ | hv | ⟨c, x, q, he, -, hce, -⟩ | ⟨as, p, he, hl, hp, hf⟩
    · rw [kindC_eq he, kind_of_entry he]
      simp only [Option.bind_some, constValueC_entry he, constValue_of_entry he]
      split <;> rfl
    · obtain ⟨e, he⟩ := varLike_entry hv
      rw [kindC_eq he]
      rcases hv with hv | hv | hv <;> rw [hv] <;> rfl
    · obtain ⟨h1, h2, h3⟩ := product_of_entry he hce
      obtain ⟨g2, g3⟩ := product_argsC he hce
      rw [kindC_eq he, h1]
      simp only [Option.bind_some, g2, g3, h2, h3, Option.map_some]
    · have ha : s.argsC .poly t = some as := by
        unfold argsC
        simp only [kindC_eq he, kind_of_entry he, descr_of_entry he, Option.bind_some, decide_true, need_true]
      have ha' : s.allArgs t = as := by
        unfold allArgs
        rw [descr_of_entry he]
      rw [kindC_eq he, kind_of_entry he]
      simp only [Option.bind_some, ha, ha']
      refine List.foldl_ext _ _ _ fun acc c hc => ?_
      rw [termToPolyC_eq h fuel (forall₂_right hf (fun _ _ h => h.real) c hc)]

theorem toPolyC_eq (h : WF H s) {t : Tm} (ht : IsReal s t) : s.toPolyC t = s.toPoly t := termToPolyC_eq h 2 ht

theorem arithProductC_eq (h : WF H s) (q : ℚ) {x : Tm} (hx : IsReal s x) (hv : VarLike s x) :
    s.arithProductC H q x = some (s.arithProduct H q x) := by
  obtain ⟨e, he⟩ := varLike_entry hv
  have h1 := arithConstant_wf h q
  have hb : (decide (s.kind x = .uninterpreted) || (decide (s.kind x = .ite) || decide (s.kind x = .app)) &&
      decide (s.type x = .real)) = true := by
    rcases hv with hv | hv | hv <;> simp [hv, hx.1]
  unfold arithProductC arithProduct
  simp only [kindC_eq he, typeC_eq he, Option.bind_some, hb, need_true, arithConstantC_eq h]
  exact compositeC_eq h1.1 (by unfold CompKind; decide) _ _

theorem monoToTermC_eq (h : WF H s) {m : Option Tm × ℚ} (hm : m.2 ≠ 0)
    (hv : ∀ x, m.1 = some x → IsReal s x ∧ VarLike s x) : s.monoToTermC H m = some (s.monoToTerm H m) := by
  obtain ⟨v, q⟩ := m
  unfold monoToTermC monoToTerm
  simp only at hm
  simp only [ne_eq, hm, not_false_eq_true, decide_true, need_true, Option.bind_some]
  cases v with
  | none => exact arithConstantC_eq h q
  | some x =>
    obtain ⟨hx, hxv⟩ := hv x rfl
    simp only [arithProductC_eq h q hx hxv, apply_ite some]

theorem monosToTermsC_eq : ∀ {p : APoly} {s : TermTable}, WF H s → (∀ m ∈ p, m.2 ≠ 0) → VarsOK s p →
    s.monosToTermsC H p = some (s.monosToTerms H p)
  | [], _, _, _, _ => rfl
  | m :: ms, s, h, hnz, hv => by
    obtain ⟨h1, h2, -⟩ := monoToTerm_spec h (hnz m (by simp)) (hv m (by simp))
    have ih := monosToTermsC_eq (p := ms) h1 (fun a ha => hnz a (by simp [ha]))
      (VarsOK.ext h2 fun a ha => hv a (by simp [ha]))
    unfold monosToTermsC monosToTerms
    simp only [monoToTermC_eq h (hnz m (by simp)) (hv m (by simp)), Option.bind_some, ih, Option.map_some]

theorem polyToTermC_eq (h : WF H s) {p : APoly} (hp : PolyOK p) (hv : VarsOK s p) :
    s.polyToTermC H p = some (s.polyToTerm H p) := by
  match p, hp, hv with
  | [], _, _ => rfl
  | [m], hp, hv => exact monoToTermC_eq h (hp.nonzero m (by simp)) (hv m (by simp))
  | m1 :: m2 :: ms, hp, hv =>
    obtain ⟨h1, -, h3⟩ := monosToTerms_spec h hp.nonzero hv
    have hl : 2 ≤ (s.monosToTerms H (m1 :: m2 :: ms)).2.length := by
      rw [← h3.length_eq]
      simp
    unfold polyToTermC polyToTerm
    simp only [monosToTermsC_eq h hp.nonzero hv, Option.bind_some, arithPolyC, hl, decide_true, need_true]
    exact compositeC_eq h1 (by unfold CompKind; decide) _ _

theorem mkPlusC_eq (h : WF H s) {as : List Tm} (hr : ∀ a ∈ as, IsReal s a) : s.mkPlusC H as = s.mkPlus H as := by
  obtain ⟨p, hp, hok, hv, -⟩ := foldMerge_spec h hr (acc := []) ⟨List.Pairwise.nil, nofun⟩ nofun
  have hf : as.foldl (fun acc c => acc.bind fun p => (s.toPolyC c).map fun q => APoly.merge p q 1) (some []) =
      some p := by
    rw [← hp]
    refine List.foldl_ext _ _ _ fun acc c hc => ?_
    rw [toPolyC_eq h (hr c hc)]
  unfold mkPlusC mkPlus
  rw [hf, hp]
  exact polyToTermC_eq h hok hv

theorem mkMinusC_eq (h : WF H s) {a b : Tm} (ha : IsReal s a) (hb : IsReal s b) :
    s.mkMinusC H a b = s.mkMinus H a b := by
  obtain ⟨p, hp, hpok, hpv, _⟩ := toPoly_spec h ha
  obtain ⟨q, hq, hqok, hqv, _⟩ := toPoly_spec h hb
  unfold mkMinusC mkMinus
  rw [toPolyC_eq h ha, toPolyC_eq h hb, hp, hq]
  exact polyToTermC_eq h (APoly.merge_ok (by norm_num) hpok hqok) (hpv.merge hqv _)

theorem mkUnaryMinusC_eq (h : WF H s) {a : Tm} (ha : IsReal s a) : s.mkUnaryMinusC H a = s.mkUnaryMinus H a := by
  obtain ⟨p, hp, hpok, hpv, _⟩ := toPoly_spec h ha
  unfold mkUnaryMinusC mkUnaryMinus
  rw [toPolyC_eq h ha, hp]
  exact polyToTermC_eq h (APoly.negate_ok hpok) (hpv.map _)

theorem timesConstC_eq (h : WF H s) {q : ℚ} (hq : q ≠ 0) {t : Tm} (ht : IsReal s t)
    (hnc : s.isArithConst t = false) : s.timesConstC H q t = s.timesConst H q t := by
  unfold timesConstC timesConst
  rcases real_cases h ht with ⟨c, he⟩ | hv | ⟨c, x, q', he, hc, hce, hq', hx, hxv⟩ | ⟨as, p, he, hl, hp, hf⟩
  · rw [isArithConst_of_entry he] at hnc
    cases hnc
  · obtain ⟨e, he⟩ := varLike_entry hv
    have h1 := arithProductC_eq h q ht hv
    rw [kindC_eq he]
    rcases hv with hv | hv | hv <;> rw [hv] <;>
      simp only [Option.bind_some, typeC_eq he, ht.1, decide_true, need_true, h1]
  · obtain ⟨h1, h2, h3⟩ := product_of_entry he hce
    obtain ⟨g2, g3⟩ := product_argsC he hce
    rw [kindC_eq he, h1]
    simp only [Option.bind_some, g2, g3, h2, h3]
    exact arithProductC_eq h _ hx hxv
  · rw [kindC_eq he, kind_of_entry he]
    obtain ⟨p, hp, hpok, hpv, _⟩ := toPoly_spec h ht
    simp only [Option.bind_some, toPolyC_eq h ht, hp, Option.map_some]
    exact polyToTermC_eq h (APoly.multiplyBy_ok hq hpok) (hpv.map (· * q))

theorem constValueC_eq (h : WF H s) {t : Tm} (ht : IsReal s t) (hc : s.isArithConst t = true) :
    s.constValueC t = some (s.constValue t) := by
  rcases real_cases h ht with ⟨c, he⟩ | hv | ⟨c, x, q', he, _⟩ | ⟨as, p, he, _⟩
  · rw [constValueC_entry he, constValue_of_entry he]
  · simp only [isArithConst, decide_eq_true_eq] at hc
    rcases hv with hv | hv | hv <;> rw [hv] at hc <;> cases hc
  · simp only [isArithConst, kind_of_entry he, decide_eq_true_eq] at hc; cases hc
  · simp only [isArithConst, kind_of_entry he, decide_eq_true_eq] at hc; cases hc

theorem mkTimesC_eq (h : WF H s) {as : List Tm} (hr : ∀ a ∈ as, IsReal s a) :
    s.mkTimesC H as = s.mkTimes H as := by
  match as, hr with
  | [], _ => exact arithConstantC_eq h 1
  | [t], _ => rfl
  | _ :: _ :: _ :: _, _ => rfl
  | [a, b], hr =>
    have ha := hr a (by simp)
    have hb := hr b (by simp)
    obtain ⟨ea, hea⟩ := real_entry ha
    obtain ⟨eb, heb⟩ := real_entry hb
    unfold mkTimesC mkTimes
    simp only [kindC_eq hea, kindC_eq heb, Option.bind_some]
    cases h1 : s.isArithConst a <;> cases h2 : s.isArithConst b
    · simp [h1, h2]
    · simp only [List.filter, h1, h2, Bool.not_true, Bool.not_false, List.length_singleton, le_refl, decide_true,
        need_true, Option.bind_some, timesValueC, List.foldl, constValueC_eq h hb h2, Option.map_some]
      by_cases h0 : (1 : ℚ) * s.constValue b = 0
      · simp [h0]
      · simp only [h0, if_false, timesConstC_eq h h0 ha h1]
    · simp only [List.filter, h1, h2, Bool.not_true, Bool.not_false, List.length_singleton, le_refl, decide_true,
        need_true, Option.bind_some, timesValueC, List.foldl, constValueC_eq h ha h1, Option.map_some]
      by_cases h0 : (1 : ℚ) * s.constValue a = 0
      · simp [h0]
      · simp only [h0, if_false, timesConstC_eq h h0 hb h2]
    · simp only [List.filter, h1, h2, Bool.not_true, List.length_nil, Nat.zero_le, decide_true,
        need_true, Option.bind_some, timesValueC, List.foldl, constValueC_eq h ha h1, constValueC_eq h hb h2,
        Option.map_some, arithConstantC_eq h]

theorem mkDividesC_eq (h : WF H s) {a b : Tm} (ha : IsReal s a) (hb : IsReal s b) :
    s.mkDividesC H a b = s.mkDivides H a b := by
  obtain ⟨ea, hea⟩ := real_entry ha
  obtain ⟨eb, heb⟩ := real_entry hb
  unfold mkDividesC mkDivides
  rw [kindC_eq heb]
  by_cases hc : s.isArithConst b = true
  · have hk : s.kind b = .arithConst := by simpa [isArithConst] using hc
    simp only [hk, Option.bind_some, decide_true, need_true, constValueC_eq h hb hc, hc]
    by_cases h0 : s.constValue b = 0
    · simp [h0]
    · simp only [ne_eq, h0, not_false_eq_true, decide_true, need_true, Option.bind_some, kindC_eq hea, Bool.true_eq_false,
        or_self, if_false, arithConstantC_eq h]
      by_cases ka : s.isArithConst a = true
      · have hka : s.kind a = .arithConst := by simpa [isArithConst] using ka
        simp only [hka, if_true, constValueC_eq h ha ka, Option.bind_some, ka]
      · have hka : s.kind a ≠ .arithConst := by simpa [isArithConst] using ka
        have h1 := arithConstant_res h (1 / s.constValue b)
        simp only [hka, if_false, ka]
        refine mkTimesC_eq h1.wf fun c hc => ?_
        simp only [List.mem_cons, List.not_mem_nil, or_false] at hc
        rcases hc with rfl | rfl
        exacts [ha.ext h1.ext, h1.isReal]
  · have hk : s.kind b ≠ .arithConst := by simpa [isArithConst] using hc
    simp [hk, hc]

theorem eqZeroC_eq (h : WF H s) {t : Tm} (ht : IsReal s t) : s.eqZeroC H t = some (s.eqZero H t) := by
  obtain ⟨e, he⟩ := real_entry ht
  unfold eqZeroC eqZero
  simp only [typeC_eq he, ht.1, Option.bind_some, decide_true, need_true]
  exact compositeC_eq h (by unfold CompKind; decide) _ _

theorem geqZeroC_eq (h : WF H s) {t : Tm} (ht : IsReal s t) : s.geqZeroC H t = some (s.geqZero H t) := by
  obtain ⟨e, he⟩ := real_entry ht
  unfold geqZeroC geqZero
  simp only [typeC_eq he, ht.1, Option.bind_some, decide_true, need_true]
  exact compositeC_eq h (by unfold CompKind; decide) _ _

theorem binEqC_eq (h : WF H s) {a b : Tm} (ha : IsReal s a) (hb : IsReal s b) (hva : VarLike s a)
    (hvb : VarLike s b ∨ s.kind b = .arithConst) : s.binEqC H a b = some (s.binEq H a b) := by
  obtain ⟨ea, hea⟩ := real_entry ha
  obtain ⟨eb, heb⟩ := real_entry hb
  have h1 : (decide (s.kind a = .uninterpreted) || decide (s.kind a = .ite) || decide (s.kind a = .app)) = true := by
    rcases hva with h | h | h <;> simp [h]
  have h2 : (decide (s.kind b ≠ .product) && decide (s.kind b ≠ .poly)) = true := by
    rcases hvb with (h | h | h) | h <;> simp [h]
  unfold binEqC binEq
  simp only [typeC_eq hea, typeC_eq heb, kindC_eq hea, kindC_eq heb, ha.1, hb.1, Option.bind_some, decide_true,
    Bool.and_self, h1, h2, need_true]
  exact compositeC_eq h (by unfold CompKind; decide) _ _

theorem isVarLikeC_eq {t : Tm} (ht : IsReal s t) : s.isVarLikeC t = some (s.isVarLike t) := by
  obtain ⟨e, he⟩ := real_entry ht
  unfold isVarLikeC isVarLike
  simp only [kindC_eq he, typeC_eq he, ht.1, Option.bind_some, decide_true, Bool.or_true, need_true]

theorem directEqC_eq (h : WF H s) {a b : Tm} (ha : IsReal s a) (hb : IsReal s b) (hva : VarLike s a)
    (hvb : VarLike s b ∨ s.kind b = .arithConst) (hne : a ≠ b) : s.directEqC H a b = some (s.directEq H a b) := by
  have h1 := isVarLike_iff.2 hva
  unfold directEqC directEq
  simp only [ne_eq, hne, not_false_eq_true, decide_true, need_true, Option.bind_some, isVarLikeC_eq ha,
    isVarLikeC_eq hb, h1, Bool.true_or, Bool.not_true, Bool.false_or]
  split
  · rename_i h2
    rw [Bool.and_eq_true] at h2
    exact binEqC_eq h hb ha (isVarLike_iff.1 h2.1) (.inl hva)
  · exact binEqC_eq h ha hb hva hvb

theorem eqOfPolyC_eq (h : WF H s) {p : APoly} (hp : PolyOK p) (hv : VarsOK s p) :
    s.eqOfPolyC H p = s.eqOfPoly H p := by
  have hr := polyToTerm_res h hp hv
  have general : ((s.polyToTermC H p).bind fun r => r.1.eqZeroC H r.2) =
      some ((s.polyToTerm H p).1.eqZero H (s.polyToTerm H p).2) := by
    rw [polyToTermC_eq h hp hv]
    exact eqZeroC_eq hr.wf hr.isReal
  match p, hp, hv, general with
  | [], _, _, _ => rfl
  | [(none, q)], hp, _, _ =>
    have hq : q ≠ 0 := hp.nonzero (none, q) (by simp)
    unfold eqOfPolyC eqOfPoly
    simp [hq]
  | [(some x, q)], _, hv, _ => exact eqZeroC_eq h (hv _ (List.mem_singleton.mpr rfl) x rfl).1
  | [(none, _), (none, _)], _, _, _ => rfl
  | [(some _, _), (none, _)], _, _, _ => rfl
  | [(none, q1), (some y, q2)], hp, hv, _ =>
    obtain ⟨hy, hyv⟩ := hv (some y, q2) (by simp) y rfl
    have hq1 : q1 ≠ 0 := hp.nonzero (none, q1) (by simp)
    have hq2 : q2 ≠ 0 := hp.nonzero (some y, q2) (by simp)
    have h1 := arithConstant_res h (-q1 / q2)
    have hk : (s.arithConstant H (-q1 / q2)).1.kind (s.arithConstant H (-q1 / q2)).2 = .arithConst :=
      kind_of_entry (arithConstant_wf h (-q1 / q2)).2.2.1
    have hne : y ≠ (s.arithConstant H (-q1 / q2)).2 := by
      intro h2
      rw [← h2] at hk
      rcases hyv.ext h1.ext with h3 | h3 | h3 <;> rw [hk] at h3 <;> cases h3
    unfold eqOfPolyC eqOfPoly
    simp only [ne_eq, hq1, hq2, not_false_eq_true, decide_true, Bool.and_self, need_true, Option.bind_some,
      arithConstantC_eq h]
    exact directEqC_eq h1.wf (hy.ext h1.ext) h1.isReal (hyv.ext h1.ext) (.inr hk) hne
  | [(some x, q1), (some y, q2)], hp, hv, general =>
    obtain ⟨hx, hxv⟩ := hv (some x, q1) (by simp) x rfl
    obtain ⟨hy, hyv⟩ := hv (some y, q2) (by simp) y rfl
    have hxy : x ≠ y := by
      have := hp.head_lt (some y, q2) (by simp)
      simp only [APoly.varLt] at this
      rintro rfl
      simp [Tm.lt] at this
    unfold eqOfPolyC eqOfPoly
    simp only [general, directEqC_eq h hx hy hxv (.inl hyv) hxy]
  | _ :: _ :: _ :: _, _, _, general => exact general

theorem mkArithEqC_eq (h : WF H s) {a b : Tm} (ha : IsReal s a) (hb : IsReal s b) :
    s.mkArithEqC H a b = s.mkArithEq H a b := by
  obtain ⟨p, hp, hpok, hpv, _⟩ := toPoly_spec h ha
  obtain ⟨q, hq, hqok, hqv, _⟩ := toPoly_spec h hb
  unfold mkArithEqC mkArithEq
  simp only [toPolyC_eq h ha, toPolyC_eq h hb, hp, hq, Option.bind_some,
    eqOfPolyC_eq h (APoly.merge_ok (by norm_num : (-1 : ℚ) ≠ 0) hpok hqok) (hpv.merge hqv _)]

theorem mkGeqC_eq (h : WF H s) {a b : Tm} (ha : IsReal s a) (hb : IsReal s b) :
    s.mkGeqC H a b = s.mkGeq H a b := by
  obtain ⟨r, hr, h1⟩ := mkMinus_res h ha hb
  obtain ⟨e, he⟩ := real_entry h1.isReal
  unfold mkGeqC mkGeq
  rw [mkMinusC_eq h ha hb, hr]
  simp only [Option.bind_some, Option.map_some, kindC_eq he]
  by_cases hc : r.1.isArithConst r.2 = true
  · have hk : r.1.kind r.2 = .arithConst := by simpa [isArithConst] using hc
    simp only [hk, if_true, constValueC_eq h1.wf h1.isReal hc, Option.map_some, hc]
  · have hk : r.1.kind r.2 ≠ .arithConst := by simpa [isArithConst] using hc
    simp only [hk, if_false, hc, Bool.false_eq_true]
    exact geqZeroC_eq h1.wf h1.isReal

theorem mkLtC_eq (h : WF H s) {a b : Tm} (ha : IsReal s a) (hb : IsReal s b) :
    s.mkLtC H a b = s.mkLt H a b := by
  unfold mkLtC mkLt
  rw [mkGeqC_eq h ha hb]

theorem arithIteC_eq (h : WF H s) {c t e : Tm} (hc : IsBool s c) (ht : IsReal s t) (he : IsReal s e) :
    s.arithIteC H c t e = some (s.arithIte H c t e) := by
  obtain ⟨ec, hec⟩ := bool_entry hc
  obtain ⟨et, het⟩ := real_entry ht
  obtain ⟨ee, hee⟩ := real_entry he
  have hc' : s.type c = .bool := hc
  unfold arithIteC arithIte
  simp only [typeC_eq hec, typeC_eq het, typeC_eq hee, hc', ht.1, he.1, Option.bind_some, decide_true, Bool.and_self,
    need_true]
  exact compositeC_eq h (by unfold CompKind; decide) _ _

theorem mkArithIteC_eq (h : WF H s) {c t e : Tm} (hc : IsBool s c) (ht : IsReal s t) (he : IsReal s e) :
    s.mkArithIteC H c t e = some (s.mkArithIte H c t e) := by
  unfold mkArithIteC mkArithIte
  simp only [arithIteC_eq h hc ht he, arithIteC_eq h hc.opp he ht, apply_ite some]

/-! ### Both -/

theorem mkIteC_eq (h : WF H s) {c t e : Tm} (hc : IsBool s c)
    (hte : (IsBool s t ∧ IsBool s e) ∨ (IsReal s t ∧ IsReal s e)) : s.mkIteC H c t e = s.mkIte H c t e := by
  obtain ⟨ec, hec⟩ := bool_entry hc
  have hc' : s.type c = .bool := hc
  unfold mkIteC mkIte
  rcases hte with ⟨ht, he⟩ | ⟨ht, he⟩
  · obtain ⟨et, het⟩ := bool_entry ht
    obtain ⟨ee, hee⟩ := bool_entry he
    have ht' : s.type t = .bool := ht
    have he' : s.type e = .bool := he
    simp only [typeC_eq hec, typeC_eq het, typeC_eq hee, hc', ht', he', Option.bind_some, decide_true, need_true,
      ne_eq, not_true_eq_false, if_false]
    exact mkBoolIteC_eq h hc ht he
  · obtain ⟨et, het⟩ := real_entry ht
    obtain ⟨ee, hee⟩ := real_entry he
    simp only [typeC_eq hec, typeC_eq het, typeC_eq hee, hc', ht.1, he.1, Option.bind_some, decide_true, need_true,
      ne_eq, not_true_eq_false, if_false]
    exact mkArithIteC_eq h hc ht he

theorem mkBinaryEqC_eq (h : WF H s) {a b : Tm} (hab : SameTy s a b) : s.mkBinaryEqC H a b = s.mkBinaryEq H a b := by
  unfold mkBinaryEqC mkBinaryEq
  rcases hab with ⟨ha, hb⟩ | ⟨ha, hb⟩
  · obtain ⟨ea, hea⟩ := bool_entry ha
    obtain ⟨eb, heb⟩ := bool_entry hb
    have ha' : s.type a = .bool := ha
    have hb' : s.type b = .bool := hb
    simp only [typeC_eq hea, typeC_eq heb, ha', hb', Option.bind_some, ne_eq, not_true_eq_false, if_false]
    exact mkIffC_eq h ha hb
  · obtain ⟨ea, hea⟩ := real_entry ha
    obtain ⟨eb, heb⟩ := real_entry hb
    simp only [typeC_eq hea, typeC_eq heb, ha.1, hb.1, Option.bind_some, ne_eq, not_true_eq_false, if_false]
    exact mkArithEqC_eq h ha hb

theorem distinctFromC_eq {a : Tm} : ∀ {bs : List Tm} {s : TermTable}, WF H s → (∀ b ∈ bs, SameTy s a b) →
    s.distinctFromC H a bs = s.distinctFrom H a bs
  | [], _, _, _ => rfl
  | b :: bs, s, h, hb => by
    have hab := hb b (by simp)
    unfold distinctFromC distinctFrom
    rw [mkBinaryEqC_eq h hab]
    cases hr : s.mkBinaryEq H a b with
    | none => rfl
    | some r =>
      have h1 := mkBinaryEq_some h hab hr
      simp only [Option.bind_some]
      rw [distinctFromC_eq h1.wf fun c hc => sameType_ext h1.ext (hb c (by simp [hc]))]

theorem distinctPairsC_eq : ∀ {as : List Tm} {s : TermTable}, WF H s → (∀ a ∈ as, ∀ b ∈ as, SameTy s a b) →
    s.distinctPairsC H as = s.distinctPairs H as
  | [], _, _, _ => rfl
  | a :: as, s, h, ha => by
    have hab : ∀ b ∈ as, SameTy s a b := fun b hb => ha a (by simp) b (by simp [hb])
    unfold distinctPairsC distinctPairs
    rw [distinctFromC_eq h hab]
    cases hr : s.distinctFrom H a as with
    | none => rfl
    | some r =>
      obtain ⟨h1, h2, -⟩ := distinctFrom_spec h hab hr
      simp only [Option.bind_some]
      rw [distinctPairsC_eq h1 fun c hc d hd => sameType_ext h2 (ha c (by simp [hc]) d (by simp [hd]))]

theorem mkDistinctC_eq (h : WF H s) {as : List Tm} (ha : (∀ a ∈ as, IsBool s a) ∨ (∀ a ∈ as, IsReal s a)) :
    s.mkDistinctC H as = s.mkDistinct H as := by
  have hs : ∀ a ∈ as, ∀ b ∈ as, SameTy s a b := by
    intro a h1 b h2
    rcases ha with ha | ha
    exacts [.inl ⟨ha a h1, ha b h2⟩, .inr ⟨ha a h1, ha b h2⟩]
  unfold mkDistinctC mkDistinct
  rw [distinctPairsC_eq h hs]
  cases hr : s.distinctPairs H as with
  | none => rfl
  | some r =>
    obtain ⟨h1, -, h3, -⟩ := distinctPairs_spec h hs hr
    exact mkAndC_eq h1 h3

theorem mkAppC_eq (h : WF H s) {f : Tm} (hf : s.kind f = .uninterpreted) (as : List Tm) :
    s.mkAppC H f as = some (s.mkApp H (s.type f) f as) := by
  obtain ⟨e, he, -⟩ := entry_of_kind (s := s) (t := f) (by rw [hf]; nofun)
  unfold mkAppC mkApp appTerm
  rw [typeC_eq he]
  exact compositeC_eq h (by unfold CompKind; decide) _ _

end TermTable

theorem runC_eq (h : WF H s) {op : MgrOp} (ht : op.Typed s) : op.runC H s = op.run H s := by
  cases op with
  | fresh ty => rfl
  | rational q => exact arithConstantC_eq h q
  | or as => exact mkOrC_eq h ht
  | and as => exact mkAndC_eq h ht
  | implies a b => exact mkImpliesC_eq h a b
  | xor a b => exact mkXorC_eq h ht.1 ht.2
  | ite c t e => exact mkIteC_eq h ht.1 ht.2
  | eq a b => exact mkBinaryEqC_eq h ht
  | distinct as => exact mkDistinctC_eq h ht
  | plus as => exact mkPlusC_eq h ht
  | minus a b => exact mkMinusC_eq h ht.1 ht.2
  | neg a => exact mkUnaryMinusC_eq h ht
  | times as => exact mkTimesC_eq h ht
  | divides a b => exact mkDividesC_eq h ht.1 ht.2
  | geq a b => exact mkGeqC_eq h ht.1 ht.2
  | leq a b => exact mkGeqC_eq h ht.2 ht.1
  | lt a b => exact mkLtC_eq h ht.1 ht.2
  | gt a b => exact mkLtC_eq h ht.2 ht.1
  | app f as => exact mkAppC_eq h ht.1 as

end Yaga

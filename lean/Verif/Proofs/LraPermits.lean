/-
How the values that the recorded bounds permit change: bounds that stop being live do not come back.
-/
import Verif.Proofs.LraTimely
import Verif.Props.C33

namespace Yaga
open Spec
open LinStore (delta WfTerms Inv Kept Made)

namespace VBounds
variable {s : LinStore} {m : LModels}

/-- No list has an element that the other state does not have. -/
structure Sub (v w : VBounds) : Prop where
  ub : ∀ e ∈ w.ub, e ∈ v.ub
  lb : ∀ e ∈ w.lb, e ∈ v.lb
  dis : ∀ e ∈ w.dis, e ∈ v.dis

theorem Sub.refl (v : VBounds) : Sub v v := ⟨fun _ h => h, fun _ h => h, fun _ h => h⟩

theorem Sub.trans {u v w : VBounds} (h1 : Sub u v) (h2 : Sub v w) : Sub u w :=
  ⟨fun e h => h1.ub e (h2.ub e h), fun e h => h1.lb e (h2.lb e h), fun e h => h1.dis e (h2.dis e h)⟩

theorem sub_lower (v : VBounds) : Sub v (v.lower s m).1 :=
  ⟨fun _ h => h, Lra.popObs_sub s m v.lb, fun _ h => h⟩

theorem sub_upper (v : VBounds) : Sub v (v.upper s m).1 :=
  ⟨Lra.popObs_sub s m v.ub, fun _ h => h, fun _ h => h⟩

theorem sub_inequality (v : VBounds) (q : ℚ) : Sub v (v.inequality s m q).1 :=
  ⟨fun _ h => h, fun _ h => h, fun _ h => (List.mem_filter.mp h).1⟩

theorem sub_allowed (v : VBounds) (q : ℚ) : Sub v (v.isAllowed s m q).1 := by
  unfold isAllowed
  simp only
  split
  · exact sub_inequality v q
  · split
    · exact ((sub_inequality v q).trans (sub_lower _)).trans (sub_upper _)
    · exact (sub_inequality v q).trans (sub_lower _)

theorem sub_around (n : Nat) : ∀ (q : ℚ) (v : VBounds), Sub v (around s m n q v).1 := by
  induction n with
  | zero => intro q v; exact Sub.refl _
  | succ n ih =>
    intro q v
    unfold around
    simp only
    split
    · exact sub_allowed _ _
    · split
      · exact (sub_allowed _ _).trans (sub_allowed _ _)
      · exact ((sub_allowed _ _).trans (sub_allowed _ _)).trans (ih _ _)

theorem sub_walk (st : ℚ) (n : Nat) : ∀ (q : ℚ) (v : VBounds), Sub v (walk s m st n q v).1 := by
  induction n with
  | zero => intro q v; exact Sub.refl _
  | succ n ih =>
    intro q v
    unfold walk
    simp only
    split
    · exact sub_allowed _ _
    · exact (sub_allowed _ _).trans (ih _ _)

theorem sub_halve (lb : ℚ) (n : Nat) : ∀ (q : ℚ) (v : VBounds), Sub v (halve s m lb n q v).1 := by
  induction n with
  | zero => intro q v; exact Sub.refl _
  | succ n ih =>
    intro q v
    unfold halve
    simp only
    split
    · exact sub_allowed _ _
    · exact (sub_allowed _ _).trans (ih _ _)

theorem sub_findInteger (fuel : Nat) (v : VBounds) : Sub v (findInteger s m fuel v).1 := by
  have h0 : Sub v ((v.lower s m).1.upper s m).1 := (sub_lower v).trans (sub_upper _)
  unfold findInteger aroundZero
  simp only
  split
  · exact h0.trans (sub_around _ _ _)
  · split
    · exact h0.trans (sub_around _ _ _)
    · exact (h0.trans (sub_around _ _ _)).trans (sub_walk _ _ _ _)
  · split
    · exact h0.trans (sub_around _ _ _)
    · exact (h0.trans (sub_around _ _ _)).trans (sub_walk _ _ _ _)
  · split
    · exact h0.trans (sub_walk _ _ _ _)
    · split
      · exact h0.trans (sub_walk _ _ _ _)
      · exact h0.trans (sub_around _ _ _)

theorem sub_chooseValue (fuel : Nat) (cached : Option ℚ) (v : VBounds) :
    Sub v (chooseValue s m fuel cached v).1 := by
  unfold chooseValue
  simp only
  split
  · exact sub_allowed _ _
  · have h1 : Sub v (findInteger s m fuel (v.isAllowed s m (cached.getD 0)).1).1 :=
      (sub_allowed _ _).trans (sub_findInteger _ _)
    split
    · exact h1
    · exact h1
    · split
      · exact ((h1.trans (sub_lower _)).trans (sub_upper _)).trans (sub_halve _ _ _ _)
      · exact (h1.trans (sub_lower _)).trans (sub_upper _)

theorem popObs_head {l : List Bnd} {e : Bnd} (h : (popObs s m l).head? = some e) :
    e ∈ l ∧ e.isObsolete s m = false := by
  induction l with
  | nil => cases h
  | cons b l ih =>
    unfold popObs at h
    split at h
    · exact ⟨List.mem_cons_of_mem _ (ih h).1, (ih h).2⟩
    · rename_i hb
      rw [List.head?_cons, Option.some.injEq] at h
      subst h
      exact ⟨List.mem_cons_self, by simpa using hb⟩

end VBounds

namespace Lra

theorem lst_put_sub {b : BState} {x : Nat} {v : VBounds} (h : VBounds.Sub (b.vb x) v) (kd : Option Bool)
    (y : Nat) : ∀ e ∈ lst (b.put x v) kd y, e ∈ lst b kd y := by
  intro e he
  rw [lst_put] at he
  split at he
  · rename_i hy
    subst hy
    rcases kd with _ | _ | _
    · exact h.dis e he
    · exact h.lb e he
    · exact h.ub e he
  · exact he

/-- A value that respects all live bounds respects the ones the queries return. -/
theorem Permits.allows {s : LinStore} {m : LModels} {b : BState} {x : Nat} {q : ℚ}
    (h : Permits s m b x q) : Allows s m (b.vb x) q := by
  refine ⟨fun e he => ?_, fun e he => ?_, fun e he hl hq => h.2 e he hl hq.symm⟩
  · obtain ⟨h1, h2⟩ := VBounds.popObs_head he
    obtain ⟨h3, h4⟩ := h.1 false e h1 h2
    rw [show dq false = -1 from rfl] at h3 h4
    rcases lt_or_eq_of_le (show e.value ≤ q by linarith) with h5 | h5
    · exact Or.inl h5
    · refine Or.inr ⟨h5, ?_⟩
      cases hs : e.isStrict with
      | false => rfl
      | true => have := h4 hs; linarith
  · obtain ⟨h1, h2⟩ := VBounds.popObs_head he
    obtain ⟨h3, h4⟩ := h.1 true e h1 h2
    rw [show dq true = 1 from rfl] at h3 h4
    rcases lt_or_eq_of_le (show q ≤ e.value by linarith) with h5 | h5
    · exact Or.inl h5
    · refine Or.inr ⟨h5.symm, ?_⟩
      cases hs : e.isStrict with
      | false => rfl
      | true => have := h4 hs; linarith

theorem Permits.sub {s : LinStore} {m : LModels} {b b' : BState} {x : Nat} {q : ℚ}
    (hs : ∀ kd, ∀ e ∈ lst b' kd x, e ∈ lst b kd x) (h : Permits s m b x q) : Permits s m b' x q :=
  ⟨fun up e he hl => h.1 up e (hs (some up) e he) hl, fun e he hl => h.2 e (hs none e he) hl⟩

end Lra

namespace LA
open Lra
variable {R : Type} {hv : Nat → Nat} {hc : ℚ → Nat} {t t' : Trail R} {s s' : LinStore} {b b' : BState}

/-- A step of the models is a step of their parts below a level, unless a variable moves down. -/
theorem mstep_cuts (ht : t.Inv) (ht' : t'.Inv) (hm : MStep (mods t) (mods t')) {k k' : Nat}
    (hlev : ∀ v l l0, t'.level v = some l → l ≤ k' → t.level v = some l0 → l0 ≤ k) :
    MStep (cut t k) (cut t' k') where
  b := by
    refine ⟨hm.b.gts, fun y hy => ?_⟩
    obtain ⟨l, h1, h2⟩ := cut_b.mp hy
    rcases hm.b.old y ((def_b ht').mpr ⟨l, h1⟩) with ⟨d1, d2, d3⟩ | h
    · obtain ⟨l0, h0⟩ := (def_b ht).mp d1
      exact Or.inl ⟨cut_b.mpr ⟨l0, h0, hlev _ _ _ h1 h2 h0⟩, d2, d3⟩
    · exact Or.inr h
  r := by
    refine ⟨hm.r.gts, fun y hy => ?_⟩
    obtain ⟨l, h1, h2⟩ := cut_r.mp hy
    rcases hm.r.old y ((def_r ht').mpr ⟨l, h1⟩) with ⟨d1, d2, d3⟩ | h
    · obtain ⟨l0, h0⟩ := (def_r ht).mp d1
      exact Or.inl ⟨cut_r.mpr ⟨l0, h0, hlev _ _ _ h1 h2 h0⟩, d2, d3⟩
    · exact Or.inr h

/-- A value that is permitted stays permitted if every bound in the new lists is old or obsolete. -/
theorem permits_step (hB : Base hv hc t s b) (hI' : Inv s') (hK : Kept s s') {k : Nat} {m' : LModels}
    (hm : MStep (cut t k) m') {x : Nat} {q : ℚ}
    (hsub : ∀ kd, ∀ e ∈ lst b' kd x, e ∈ lst b kd x ∨ e.isObsolete s' m' = true)
    (h : Permits s (cut t k) b x q) : Permits s' m' b' x q := by
  refine ⟨fun up e he hl => ?_, fun e he hl => ?_⟩
  · rcases hsub (some up) e he with h1 | h1
    · refine h.1 up e h1 ?_
      exact obsolete_mono hB.inv hI' hK hm ((hB.linv.good up x e h1).mono hB.inv hB.inv (Kept.refl _) (mstep_cut hB.tinv k)
        (fun _ _ _ hb _ => hb)) hl
    · rw [hl] at h1; cases h1
  · rcases hsub none e he with h1 | h1
    · refine h.2 e h1 ?_
      exact GoodN.live hB.inv hI' hK hm ((hB.linv.dis x e h1).mono hB.inv hB.inv (Kept.refl _) (mstep_cut hB.tinv k)) hl
    · rw [hl] at h1; cases h1

end LA
end Yaga

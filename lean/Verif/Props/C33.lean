/-
C33: values decided for rational variables are allowed.
-/
import Verif.Proofs.LraDecide
import Verif.Proofs.LraExample
import Verif.Props.C32

namespace Yaga
open Spec

/-- C33. If some value respects the bounds and is not disallowed, then deciding the variable ends (from
some number of iterations on the result does not depend on the fuel being exhausted) and chooses such a
value. This holds for all bounds, disallowed values and cached values. -/
theorem C33_decides (s : LinStore) (m : LModels) (v : VBounds) (cached : Option ℚ)
    (hex : ∃ q, Allows s m v q) :
    ∃ n, ∀ fuel ≥ n, ∃ w q, v.chooseValue s m fuel cached = (w, some q) ∧ Allows s m v q := by
  obtain ⟨n, hn⟩ := VBounds.chooseValue_spec v cached hex
  refine ⟨n, fun fuel hf => ?_⟩
  obtain ⟨w, q, h1, _, h2, _⟩ := hn fuel hf
  exact ⟨w, q, h1, h2⟩

/-- C33. Whenever the search ends, the chosen value is allowed. So it does not end if no value is
allowed. -/
theorem C33_allowed (s : LinStore) (m : LModels) (v : VBounds) (cached : Option ℚ) (fuel : Nat)
    (w : VBounds) (q : ℚ) (h : v.chooseValue s m fuel cached = (w, some q)) : Allows s m v q :=
  (VBounds.chooseValue_sound v fuel cached).2 q (by rw [h])

/-- C33. The chosen value is the cached value, or an integer, or no integer is allowed. -/
theorem C33_integer_preferred (s : LinStore) (m : LModels) (v : VBounds) (cached : Option ℚ)
    (hex : ∃ q, Allows s m v q) :
    ∃ n, ∀ fuel ≥ n, ∃ w q, v.chooseValue s m fuel cached = (w, some q) ∧
      (q = cached.getD 0 ∨ (∃ z : Int, q = z) ∨ ∀ z : Int, ¬ Allows s m v z) := by
  obtain ⟨n, hn⟩ := VBounds.chooseValue_spec v cached hex
  refine ⟨n, fun fuel hf => ?_⟩
  obtain ⟨w, q, h1, _, _, h2⟩ := hn fuel hf
  exact ⟨w, q, h1, h2⟩

/-- C33. `find_integer` ends, and it returns none only if no integer is allowed. -/
theorem C33_find_integer (s : LinStore) (m : LModels) (v : VBounds) :
    ∃ n, ∀ fuel ≥ n, ∃ w r, v.findInteger s m fuel = (w, some r) ∧
      (∀ q, r = some q → Allows s m v q ∧ ∃ z : Int, q = z) ∧
      (r = none → ∀ z : Int, ¬ Allows s m v z) := by
  obtain ⟨n, hn⟩ := VBounds.findInteger_spec (s := s) (m := m) v
  refine ⟨n, fun fuel hf => ?_⟩
  obtain ⟨w, r, h1, _, h2, h3⟩ := hn fuel hf
  exact ⟨w, r, h1, h2, fun h => (h3 h).2⟩

/-- C33. In a reachable state the chosen value respects every recorded bound that is not obsolete, not
only the ones that the queries return, and the assignment meets the precondition of the history. -/
theorem C33_respects_recorded (hv : Nat → Nat) (hc : ℚ → Nat) (st : Lra.St) (h : Lra.Reach hv hc st)
    (x : Nat) (hx : x < st.models.rats.num) (hu : st.models.rats.defined x = false)
    (cached : Option ℚ) (fuel : Nat) (w : VBounds) (q : ℚ)
    (hq : (st.bnd.vb x).chooseValue st.store st.models fuel cached = (w, some q)) :
    (∀ b ∈ (st.bnd.vb x).ub, b.isObsolete st.store st.models = false →
      q ≤ b.value ∧ (b.isStrict = true → q < b.value)) ∧
    (∀ b ∈ (st.bnd.vb x).lb, b.isObsolete st.store st.models = false →
      b.value ≤ q ∧ (b.isStrict = true → b.value < q)) ∧
    (∀ d ∈ (st.bnd.vb x).dis, d.isObsolete st.store st.models = false → d.value ≠ q) ∧
    (Lra.Op.setRat x q).Ok st := by
  have ha := C33_allowed _ _ _ _ _ _ _ hq
  refine ⟨fun b hb hl => ?_, fun b hb hl => ?_, ha.2.2,
    hx, hu, (VBounds.isAllowed_iff _ _).mpr ha⟩
  · obtain ⟨r, hr, ht⟩ := C32_upper_tightest hv hc st st h (Lra.Steps.refl _) x b hb hl
    rcases ha.2.1 r hr with h1 | ⟨h1, h2⟩
    · rcases ht with h3 | ⟨h3, _⟩
      · exact ⟨by linarith, fun _ => by linarith⟩
      · exact ⟨by linarith, fun _ => by linarith⟩
    · rcases ht with h3 | ⟨h3, h4⟩
      · exact ⟨by linarith, fun _ => by linarith⟩
      · exact ⟨by linarith, fun hs => by rw [h2] at h4; exact absurd (h4 hs) (by simp)⟩
  · obtain ⟨r, hr, ht⟩ := C32_lower_tightest hv hc st st h (Lra.Steps.refl _) x b hb hl
    rcases ha.1 r hr with h1 | ⟨h1, h2⟩
    · rcases ht with h3 | ⟨h3, _⟩
      · exact ⟨by linarith, fun _ => by linarith⟩
      · exact ⟨by linarith, fun _ => by linarith⟩
    · rcases ht with h3 | ⟨h3, h4⟩
      · exact ⟨by linarith, fun _ => by linarith⟩
      · exact ⟨by linarith, fun hs => by rw [h2] at h4; exact absurd (h4 hs) (by simp)⟩

/-- C33. If `check_bounds` finds no conflict for a variable, then some value is allowed for it. So the
search ends for every variable that was checked without a conflict. -/
theorem C33_no_conflict_allows (hv : Nat → Nat) (hc : ℚ → Nat) (lvl : Nat → Nat) (st : Lra.St) (x : Nat)
    (h : (Lra.checkBounds hv hc lvl st x).2 = none) :
    ∃ q, Allows st.store st.models (st.bnd.vb x) q := by
  set v := st.bnd.vb x with hvdef
  cases hl : (v.lower st.store st.models).2 with
  | none =>
    obtain ⟨K, hK⟩ := VBounds.down_allowed v hl 0
    exact ⟨_, hK K le_rfl⟩
  | some l =>
    cases hu : (v.upper st.store st.models).2 with
    | none =>
      obtain ⟨K, hK⟩ := VBounds.up_allowed v hu 0
      exact ⟨_, hK K le_rfl⟩
    | some u =>
      -- the queries of the first analysis
      have q1 : (st.bnd.lower st.store st.models x).2 = some l := hl
      have v1 : (st.bnd.lower st.store st.models x).1.vb x = (v.lower st.store st.models).1 := by
        show (st.bnd.put x _).vb x = _
        rw [Lra.vb_put, if_pos rfl]
      have q2 : ((st.bnd.lower st.store st.models x).1.upper st.store st.models x).2 = some u := by
        show (((st.bnd.lower st.store st.models x).1.vb x).upper st.store st.models).2 = some u
        rw [v1, (VBounds.eqv_lower v).upper]; exact hu
      have v2 : ((st.bnd.lower st.store st.models x).1.upper st.store st.models x).1.vb x =
          ((v.lower st.store st.models).1.upper st.store st.models).1 := by
        show ((st.bnd.lower st.store st.models x).1.put x _).vb x = _
        rw [Lra.vb_put, if_pos rfl, v1]
      have e2 : VBounds.Eqv st.store st.models v
          ((v.lower st.store st.models).1.upper st.store st.models).1 :=
        (VBounds.eqv_lower v).trans (VBounds.eqv_upper _)
      unfold Lra.checkBounds at h
      simp only at h
      have hb : (Lra.boundConflict hv hc lvl st x).2.isSome = false := by
        by_contra hn
        rw [Bool.not_eq_false] at hn
        rw [if_pos hn] at h
        rw [h] at hn; cases hn
      rw [if_neg (by rw [hb]; simp)] at h
      have hcond : l.value < u.value ∨ l.value = u.value ∧ (l.isStrict || u.isStrict) = false := by
        unfold Lra.boundConflict at hb
        simp only [q1, q2] at hb
        by_contra hn
        rw [if_neg hn] at hb
        cases hb
      have hst : (Lra.boundConflict hv hc lvl st x).1 =
          ⟨st.store, st.models, ((st.bnd.lower st.store st.models x).1.upper st.store st.models x).1⟩ := by
        unfold Lra.boundConflict
        simp only [q1, q2]
        rw [if_pos hcond]
      rcases hcond with hlt | ⟨heq, hns⟩
      · obtain ⟨K, hK⟩ := VBounds.escape (fun k => l.value + (u.value - l.value) / 2 ^ k)
          (v.dis.map Bnd.value) (fun d _ => VBounds.escape_halve l.value u.value hlt d)
        refine ⟨l.value + (u.value - l.value) / 2 ^ (max K 1), ?_, ?_, ?_⟩
        · intro b hb
          rw [hl, Option.some.injEq] at hb
          subst hb
          left
          have : 0 < (u.value - l.value) / 2 ^ (max K 1) := div_pos (by linarith) (by positivity)
          linarith
        · intro b hb
          rw [hu, Option.some.injEq] at hb
          subst hb
          left
          have h2 : (1 : ℚ) < 2 ^ (max K 1) := one_lt_pow₀ (by norm_num) (by omega)
          have : (u.value - l.value) / 2 ^ (max K 1) < u.value - l.value :=
            div_lt_self (by linarith) h2
          linarith
        · intro d hd _ e
          exact hK (max K 1) (le_max_left _ _) d.value (List.mem_map_of_mem hd) e.symm
      · simp only [Bool.or_eq_false_iff] at hns
        refine ⟨l.value, ?_, ?_, ?_⟩
        · intro b hb
          rw [hl, Option.some.injEq] at hb
          subst hb
          exact Or.inr ⟨rfl, hns.1⟩
        · intro b hb
          rw [hu, Option.some.injEq] at hb
          subst hb
          exact Or.inr ⟨heq.symm, hns.2⟩
        · intro d hd hdl hdv
          rw [hst] at h
          unfold Lra.ineqConflict at h
          simp only at h
          set b2 := ((st.bnd.lower st.store st.models x).1.upper st.store st.models x).1 with hb2
          have q3 : (b2.lower st.store st.models x).2 = some l := by
            show ((b2.vb x).lower st.store st.models).2 = some l
            rw [v2, e2.lower]; exact hl
          have v3 : (b2.lower st.store st.models x).1.vb x =
              (((v.lower st.store st.models).1.upper st.store st.models).1.lower st.store
                st.models).1 := by
            show (b2.put x _).vb x = _
            rw [Lra.vb_put, if_pos rfl, v2]
          have e3 := e2.trans (VBounds.eqv_lower
            ((v.lower st.store st.models).1.upper st.store st.models).1)
          have q4 : ((b2.lower st.store st.models x).1.upper st.store st.models x).2 = some u := by
            show (((b2.lower st.store st.models x).1.vb x).upper st.store st.models).2 = some u
            rw [v3, e3.upper]; exact hu
          simp only [q3, q4] at h
          have hr1 : l.reason.isStrict = false := by
            have := hns.1
            unfold Bnd.isStrict at this
            exact (Bool.or_eq_false_iff.mp this).1
          have hr2 : u.reason.isStrict = false := by
            have := hns.2
            unfold Bnd.isStrict at this
            exact (Bool.or_eq_false_iff.mp this).1
          rw [if_neg (by rw [heq, hr1, hr2]; simp)] at h
          set b4 := ((b2.lower st.store st.models x).1.upper st.store st.models x).1 with hb4
          have e4 : VBounds.Eqv st.store st.models v (b4.vb x) := by
            have : b4.vb x = ((b2.lower st.store st.models x).1.vb x |>.upper st.store
                st.models).1 := by
              show ((b2.lower st.store st.models x).1.put x _).vb x = _
              rw [Lra.vb_put, if_pos rfl]
            rw [this, v3]
            exact e3.trans (VBounds.eqv_upper _)
          have hno : ¬ Allows st.store st.models v l.value := fun ha => ha.2.2 d hd hdl hdv
          cases hi : ((b4.vb x).inequality st.store st.models l.value).2 with
          | some n => rw [hi] at h; cases h
          | none =>
            -- no disallowed value, contradiction
            unfold VBounds.inequality at hi
            simp only at hi
            rw [← e4.dis] at hi
            have := List.find?_eq_none.mp hi d (List.mem_filter.mpr ⟨hd, by simp [hdl]⟩)
            simp [hdv] at this

/-- Bounds `1/4 ≤ x₀`, `x₀ < 1/2` and `x₀ ≠ 3/8`; no integer is allowed, the search halves. -/
def exFraction : List (Lra.St → Lra.Op) :=
  [fun _ => .resizeRat 1, fun _ => .constraint [(0, 1)] .lt (1/4), fun _ => .constraint [(0, 1)] .lt (1/2),
    fun _ => .constraint [(0, 1)] .eq (3/8),
    fun _ => .setBool 0 false, fun _ => .setBool 1 true, fun _ => .setBool 2 false,
    fun st => .update (st.store.get 0), fun st => .update (st.store.get 1),
    fun st => .update (st.store.get 2)]

theorem reach_exFraction : Lra.Reach id (fun _ => 0) (Lra.after exFraction) :=
  Lra.reach_after (by decide +kernel)

/-- The chosen value is `5/16`, after `1/2` and `3/8` were tried. -/
example : (((Lra.after exFraction).bnd.vb 0).chooseValue (Lra.after exFraction).store
    (Lra.after exFraction).models 3 none).2 = some (5/16) := by decide +kernel

/-- The check of the bounds finds no conflict there. -/
example : (Lra.checkBounds id (fun _ => 0) (fun _ => 0) (Lra.after exFraction) 0).2 = none := by
  decide +kernel

#print axioms C33_decides
#print axioms C33_allowed
#print axioms C33_integer_preferred
#print axioms C33_find_integer
#print axioms C33_respects_recorded
#print axioms C33_no_conflict_allows

end Yaga

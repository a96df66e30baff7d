/-
The records of `let` bindings implement nested scopes.
-/
import Verif.Spec.Let

namespace Yaga

open Spec

variable {τ : Type}

namespace LetRecords

theorem find_erase (bs : List (String × LetBinder τ)) (n m : String) :
    find (erase bs n) m = if m = n then none else find bs m := by
  induction bs with
  | nil => simp [erase, find]
  | cons b bs ih =>
    unfold erase at ih ⊢
    by_cases hb : b.1 = n
    · rw [List.filter_cons_of_neg (by simpa using hb), ih]
      split
      · rfl
      · rename_i hm
        rw [find, if_neg (by rw [hb]; exact fun h => hm h.symm)]
    · rw [List.filter_cons_of_pos (by simpa using hb), find, ih, find]
      by_cases h1 : b.1 = m
      · rw [if_pos h1, if_pos h1, if_neg (by rw [← h1]; exact hb)]
      · rw [if_neg h1, if_neg h1]

theorem find_update (bs : List (String × LetBinder τ)) (n m : String) (v : LetBinder τ) :
    find (update bs n v) m = if m = n then some v else find bs m := by
  unfold update
  rw [find]
  simp only
  by_cases h : m = n
  · rw [if_pos h.symm, if_pos h]
  · rw [if_neg (fun h' => h h'.symm), if_neg h, find_erase, if_neg h]

end LetRecords

/-- The values bound to a name, the innermost first. -/
def valuesOf (bs : List (String × τ)) (n : String) : List τ :=
  (bs.filter fun b => decide (b.1 = n)).map (·.2)

theorem innermost_eq (bs : List (String × τ)) (n : String) : innermost bs n = (valuesOf bs n).head? := by
  induction bs with
  | nil => rfl
  | cons b bs ih =>
    unfold valuesOf at ih ⊢
    rw [innermost]
    by_cases h : b.1 = n
    · rw [if_pos h, List.filter_cons_of_pos (by simpa using h)]; rfl
    · rw [if_neg h, List.filter_cons_of_neg (by simpa using h)]; exact ih

/-- What the map holds for a name with these values. -/
def binderOf : List τ → Option (LetBinder τ)
  | [] => none
  | v :: vs => some ⟨v, vs⟩

/-- The map holds the bindings of the list. -/
def MapFor (bs : List (String × LetBinder τ)) (all : List (String × τ)) : Prop :=
  ∀ n, LetRecords.find bs n = binderOf (valuesOf all n)

/-- The limits of the frames. -/
def limitsOf (top : List (String × τ)) : List (List (String × τ)) → List Nat
  | [] => []
  | _ :: fs => (fs.flatten ++ top).length :: limitsOf top fs

/-- The records represent the scopes. -/
structure Rep (r : LetRecords τ) (s : Scopes τ) : Prop where
  map : MapFor r.binders s.all
  known : r.known = s.all.map (·.1)
  limits : r.limits = limitsOf s.top s.frames

theorem valuesOf_cons (b : String × τ) (bs : List (String × τ)) (n : String) :
    valuesOf (b :: bs) n = if n = b.1 then b.2 :: valuesOf bs n else valuesOf bs n := by
  unfold valuesOf
  by_cases h : n = b.1
  · rw [if_pos h, List.filter_cons_of_pos (by simpa using h.symm)]; rfl
  · rw [if_neg h, List.filter_cons_of_neg (by simpa using fun h' : b.1 = n => h h'.symm)]

theorem MapFor.add {bs : List (String × LetBinder τ)} {all : List (String × τ)} (h : MapFor bs all)
    (n : String) (t : τ) :
    MapFor (match LetRecords.find bs n with
      | none => (n, ⟨t, []⟩) :: bs
      | some v => LetRecords.update bs n ⟨t, v.current :: v.shadowed⟩) ((n, t) :: all) := by
  intro m
  rw [valuesOf_cons]
  have hn := h n
  cases hf : LetRecords.find bs n with
  | none =>
    simp only
    rw [hf] at hn
    have hv : valuesOf all n = [] := by
      cases hv : valuesOf all n with
      | nil => rfl
      | cons => rw [hv] at hn; cases hn
    rw [LetRecords.find]
    by_cases hm : m = n
    · subst hm; rw [if_pos rfl, if_pos rfl, hv]; rfl
    · rw [if_neg (fun h => hm h.symm), if_neg hm]; exact h m
  | some v =>
    simp only
    rw [LetRecords.find_update]
    by_cases hm : m = n
    · subst hm
      rw [if_pos rfl, if_pos rfl]
      rw [hf] at hn
      cases hv : valuesOf all m with
      | nil => rw [hv] at hn; cases hn
      | cons x xs => rw [hv] at hn; cases hn; rfl
    · rw [if_neg hm, if_neg hm]; exact h m

theorem popLoop_spec (drop keep : List (String × τ)) {bs : List (String × LetBinder τ)}
    (h : MapFor bs (drop ++ keep)) :
    ∃ bs', LetRecords.popLoop keep.length ((drop ++ keep).map (·.1)) bs = some (keep.map (·.1), bs') ∧
      MapFor bs' keep := by
  induction drop generalizing bs with
  | nil =>
    refine ⟨bs, ?_, h⟩
    cases keep with
    | nil => rfl
    | cons b keep => rw [List.nil_append, List.map_cons, LetRecords.popLoop, if_neg (by simp)]
  | cons b drop ih =>
    have hn := h b.1
    rw [List.cons_append, valuesOf_cons, if_pos rfl] at hn
    have hlen : ((b.1 :: (drop ++ keep).map (·.1)).length > keep.length) := by simp; omega
    rw [List.cons_append, List.map_cons, LetRecords.popLoop, if_pos hlen, hn]
    simp only [binderOf]
    have key : ∀ m, m ≠ b.1 → LetRecords.find bs m = binderOf (valuesOf (drop ++ keep) m) := by
      intro m hm
      have := h m
      rwa [List.cons_append, valuesOf_cons, if_neg hm] at this
    cases hv : valuesOf (drop ++ keep) b.1 with
    | nil =>
      apply ih
      intro m
      rw [LetRecords.find_erase]
      by_cases hm : m = b.1
      · rw [if_pos hm, hm, hv]; rfl
      · rw [if_neg hm]; exact key m hm
    | cons s ss =>
      apply ih
      intro m
      rw [LetRecords.find_update]
      by_cases hm : m = b.1
      · rw [if_pos hm, hm, hv]; rfl
      · rw [if_neg hm]; exact key m hm

theorem rep_init : Rep (LetRecords.init : LetRecords τ) ⟨[], []⟩ :=
  ⟨fun _ => rfl, rfl, rfl⟩

theorem Rep.add {r : LetRecords τ} {s : Scopes τ} (h : Rep r s) (n : String) (t : τ) :
    ∃ s', s.step (.add n t) = some s' ∧ Rep (r.addBinding n t) s' := by
  obtain ⟨frames, top⟩ := s
  have hm := h.map.add n t
  have e : r.addBinding n t = ⟨match LetRecords.find r.binders n with
      | none => (n, ⟨t, []⟩) :: r.binders
      | some v => LetRecords.update r.binders n ⟨t, v.current :: v.shadowed⟩, n :: r.known, r.limits⟩ := by
    unfold LetRecords.addBinding; split <;> simp_all
  rw [e]
  have hk := h.known
  have hl := h.limits
  cases frames with
  | nil =>
    refine ⟨_, rfl, hm, ?_, ?_⟩
    · simp [hk, Scopes.all]
    · rw [hl]; rfl
  | cons f fs =>
    refine ⟨_, rfl, hm, ?_, ?_⟩
    · simp [hk, Scopes.all]
    · rw [hl]; rfl

/-- An operation on the records corresponds to the operation on the scopes. -/
theorem Rep.step {r : LetRecords τ} {s : Scopes τ} (h : Rep r s) (op : LetOp τ) :
    match s.step op with
    | none => op.run r = none
    | some s' => ∃ r', op.run r = some r' ∧ Rep r' s' := by
  cases op with
  | push =>
    refine ⟨_, rfl, h.map, h.known, ?_⟩
    show r.known.length :: r.limits = _
    rw [h.known, h.limits, List.length_map]
    rfl
  | add n t =>
    obtain ⟨s', h1, h2⟩ := h.add n t
    rw [h1]
    exact ⟨_, rfl, h2⟩
  | pop =>
    obtain ⟨frames, top⟩ := s
    cases frames with
    | nil =>
      show r.popFrame = none
      unfold LetRecords.popFrame
      rw [h.limits]; rfl
    | cons f fs =>
      have hall : Scopes.all ⟨f :: fs, top⟩ = f ++ Scopes.all ⟨fs, top⟩ := by simp [Scopes.all]
      have hm := h.map
      rw [hall] at hm
      obtain ⟨bs', h1, h2⟩ := popLoop_spec f _ hm
      refine ⟨⟨bs', (Scopes.all ⟨fs, top⟩).map (·.1), limitsOf top fs⟩, ?_, h2, rfl, rfl⟩
      show r.popFrame = _
      unfold LetRecords.popFrame
      rw [h.limits, h.known, hall]
      simp only [limitsOf]
      rw [show (fs.flatten ++ top) = Scopes.all ⟨fs, top⟩ from rfl, h1]
      rfl

theorem Rep.after {r : LetRecords τ} {s : Scopes τ} (h : Rep r s) (ops : List (LetOp τ)) :
    match s.after ops with
    | none => r.after ops = none
    | some s' => ∃ r', r.after ops = some r' ∧ Rep r' s' := by
  induction ops generalizing r s with
  | nil => exact ⟨r, rfl, h⟩
  | cons op ops ih =>
    have := h.step op
    rw [Scopes.after, LetRecords.after]
    cases hs : s.step op with
    | none =>
      rw [hs] at this
      rw [this]
      exact rfl
    | some s' =>
      rw [hs] at this
      obtain ⟨r', h1, h2⟩ := this
      rw [h1]
      exact ih h2

theorem Rep.get {r : LetRecords τ} {s : Scopes τ} (h : Rep r s) (n : String) :
    r.get n = innermost s.all n := by
  unfold LetRecords.get
  rw [h.map n, innermost_eq]
  cases valuesOf s.all n <;> rfl

theorem after_append {s : Scopes τ} (a b : List (LetOp τ)) :
    s.after (a ++ b) = (s.after a).bind fun s => s.after b := by
  induction a generalizing s with
  | nil => rfl
  | cons op a ih =>
    rw [List.cons_append, Scopes.after, Scopes.after]
    cases s.step op with
    | none => rfl
    | some s' => exact ih

theorem after_adds (names : List (String × τ)) {f : List (String × τ)} {fs : List (List (String × τ))}
    {top : List (String × τ)} : (Scopes.mk (f :: fs) top).after (names.map fun b => .add b.1 b.2) =
      some ⟨(names.reverse ++ f) :: fs, top⟩ := by
  induction names generalizing f with
  | nil => rfl
  | cons b names ih =>
    rw [List.map_cons, Scopes.after]
    show (Scopes.mk ((b :: f) :: fs) top).after _ = _
    rw [ih]
    simp

theorem balanced_after {ops : List (LetOp τ)} (h : Balanced ops) (s : Scopes τ) :
    s.after ops = some s := by
  induction h generalizing s with
  | nil => rfl
  | scope names _ _ ih1 ih2 =>
    rename_i inner rest
    rw [List.append_assoc, List.cons_append, Scopes.after]
    show (Scopes.mk ([] :: s.frames) s.top).after _ = _
    rw [after_append, after_adds, Option.bind_some, after_append, ih1, Option.bind_some, Scopes.after]
    exact ih2 _

end Yaga

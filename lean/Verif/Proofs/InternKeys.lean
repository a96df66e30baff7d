/-
The internalizer: every term has one variable or literal, so that a model of the clauses can be read as an
interpretation.
-/
import Verif.Proofs.InternTotal

set_option linter.unusedSectionVars false
set_option linter.unusedVariables false
set_option linter.unusedSimpArgs false

namespace Yaga

open Spec TermTable Internalizer

variable {H : TermHash} {s : TermTable} {st st' : IState}

/-- Keys occur once; constants are entered as positive terms. -/
structure Keys (s : TermTable) (st : IState) : Prop where
  rat : (st.ratVars.map (·.1)).Nodup
  bool : (st.boolVars.map (·.1)).Nodup
  pos : ∀ p ∈ st.boolVars, s.kind p.1 = .uninterpreted → p.1.isNeg = false
  lit : ∀ p ∈ st.boolVars, s.kind p.1 = .uninterpreted → p.2.isNeg = false

theorem keys_insert {β : Type} {m : List (Tm × β)} (h : (m.map (·.1)).Nodup) (k : Tm) (v : β) :
    ((mapInsert m k v).map (·.1)).Nodup := by
  unfold mapInsert
  split
  · exact h
  · rename_i hn
    rw [List.map_append, List.map_singleton]
    refine List.nodup_append.mpr ⟨h, by simp, ?_⟩
    intro a ha b hb
    obtain ⟨p, hp, rfl⟩ := List.mem_map.mp ha
    rw [List.mem_singleton.mp hb]
    rintro rfl
    obtain ⟨w, hw⟩ := mapFind_isSome (k := p.1) (v := p.2) hp
    rw [hw] at hn
    exact hn rfl

theorem mapFind_of_mem {β : Type} {m : List (Tm × β)} (h : (m.map (·.1)).Nodup) {k : Tm} {v : β}
    (hm : (k, v) ∈ m) : mapFind m k = some v := by
  obtain ⟨w, hw⟩ := mapFind_isSome hm
  have := List.inj_on_of_nodup_map h hm (mapFind_mem hw) rfl
  rw [hw, (Prod.mk.inj this).2]

theorem linearConstraint_maps {cfg : ICfg} {ts : List (Nat × ℚ)} {p : Pred} {q : ℚ} {r : IState × Lit}
    (h : linearConstraint cfg st ts p q = some r) :
    r.1.ratVars = st.ratVars ∧ r.1.boolVars = st.boolVars := by
  unfold linearConstraint at h
  split at h
  · cases h
  · simp only at h
    split at h
    · split at h
      · cases h
      · cases h; exact ⟨rfl, rfl⟩
    · cases h; exact ⟨rfl, rfl⟩

theorem Keys.addBool (h : Keys s st) {st1 : IState} (h1 : st1.ratVars = st.ratVars)
    (h2 : st1.boolVars = st.boolVars) {k : Tm} (hk : s.kind k = .uninterpreted → k.isNeg = false) (l : Lit)
    (hl : s.kind k = .uninterpreted → l.isNeg = false)
    (ap : List (Var × Tm)) (cs : List Clause) :
    Keys s { st1 with boolVars := mapInsert st1.boolVars k l, apps := ap, clauses := cs } := by
  refine ⟨by show (st1.ratVars.map _).Nodup; rw [h1]; exact h.rat,
    by show ((mapInsert st1.boolVars k l).map _).Nodup; rw [h2]; exact keys_insert h.bool k l, ?_, ?_⟩
  · intro p hp
    rcases mem_mapInsert hp with hp | rfl
    · exact h.pos p (by rw [← h2]; exact hp)
    · exact hk
  · intro p hp
    rcases mem_mapInsert hp with hp | rfl
    · exact h.lit p (by rw [← h2]; exact hp)
    · exact hl

theorem Keys.addRat (h : Keys s st) {st1 : IState} {k : Tm} {v : Nat}
    (h1 : st1.ratVars = mapInsert st.ratVars k v)
    (h2 : st1.boolVars = st.boolVars) : Keys s st1 :=
  ⟨by rw [h1]; exact keys_insert h.rat k v, by rw [h2]; exact h.bool, fun p hp => h.pos p (by rw [← h2]; exact hp),
   fun p hp => h.lit p (by rw [← h2]; exact hp)⟩

theorem visit_keys (h : Keys s st) {cfg : ICfg} {t : Tm} (hv : visit cfg s st t = some st') : Keys s st' := by
  have hpos : s.kind t.pos = .uninterpreted → t.pos.isNeg = false := fun _ => Tm.pos_isNeg t
  unfold visit at hv
  cases hk : s.kind t <;> rw [hk] at hv <;> simp only at hv
  case reserved => cases hv
  case constant =>
    split at hv
    · cases hv
    · cases hv; exact h
  case arithConst => cases hv; exact h
  case product => cases hv; exact h
  case poly => cases hv; exact h
  case uninterpreted =>
    unfold visitConst at hv
    cases hty : s.type t <;> rw [hty] at hv <;> simp only at hv
    · cases hv; exact h
    · simp only [Option.bind_eq_bind, Option.bind_eq_some_iff, Option.some.injEq] at hv
      obtain ⟨_, _, rfl⟩ := hv
      exact h.addBool (st1 := (newBool st).1) rfl rfl hpos _ (fun _ => rfl) _ _
    · simp only [Option.bind_eq_bind, Option.bind_eq_some_iff, Option.some.injEq] at hv
      obtain ⟨_, _, rfl⟩ := hv
      exact h.addRat (k := t) (v := (newRat st).2) rfl rfl
  case app =>
    unfold visitApp at hv
    cases hty : s.type t <;> rw [hty] at hv <;> simp only at hv
    · cases hv
    · simp only [Option.bind_eq_bind, Option.bind_eq_some_iff, Option.some.injEq] at hv
      obtain ⟨_, _, rfl⟩ := hv
      exact h.addBool (st1 := (newBool st).1) rfl rfl (by rw [hk]; intro h; cases h) _ (by rw [hk]; intro h; cases h) _ _
    · simp only [Option.bind_eq_bind, Option.bind_eq_some_iff, Option.some.injEq] at hv
      obtain ⟨_, _, rfl⟩ := hv
      exact h.addRat (k := t) (v := (newRat st).2) rfl rfl
  case or =>
    unfold visitOr at hv
    simp only [Option.bind_eq_bind, Option.bind_eq_some_iff, Option.some.injEq] at hv
    obtain ⟨_, _, _, _, _, _, ls, _, rfl⟩ := hv
    rw [foldl_assert]
    exact h.addBool (st1 := (newBool st).1) rfl rfl hpos _ (by rw [kind_pos, hk]; intro h; cases h) _ _
  case ite =>
    unfold visitIte at hv
    split at hv
    · simp only [Option.bind_eq_bind, Option.bind_eq_some_iff, Option.some.injEq] at hv
      obtain ⟨_, _, _, _, _, _, _, _, _, _, tp, _, fp, _, r1, hr1, r2, hr2, _, _, l, _, rfl⟩ := hv
      obtain ⟨a1, b1⟩ := linearConstraint_maps hr1
      obtain ⟨a2, b2⟩ := linearConstraint_maps hr2
      refine h.addRat (k := t) (v := (newRat st).2) ?_ ?_
      · show r2.1.ratVars = _
        rw [a2, a1]; rfl
      · show r2.1.boolVars = _
        rw [b2, b1]; rfl
    · simp only [Option.bind_eq_bind, Option.bind_eq_some_iff, Option.some.injEq] at hv
      obtain ⟨_, _, rfl⟩ := hv
      exact h
  case arithGe =>
    unfold visitGe at hv
    simp only [Option.bind_eq_bind, Option.bind_eq_some_iff, Option.some.injEq] at hv
    obtain ⟨p, _, _, _, ip, _, r, hr, _, _, rfl⟩ := hv
    obtain ⟨a1, b1⟩ := linearConstraint_maps hr
    exact h.addBool a1 b1 hpos _ (by rw [kind_pos, hk]; intro h; cases h) _ _
  case arithEq =>
    unfold visitEq at hv
    simp only [Option.bind_eq_bind, Option.bind_eq_some_iff, Option.some.injEq] at hv
    obtain ⟨p, _, ip, _, r, hr, _, _, _, _, rfl⟩ := hv
    obtain ⟨a1, b1⟩ := linearConstraint_maps hr
    exact h.addBool a1 b1 hpos _ (by rw [kind_pos, hk]; intro h; cases h) _ _
  case arithBinEq =>
    unfold visitBinEq at hv
    simp only [Option.bind_eq_bind, Option.bind_eq_some_iff, Option.some.injEq] at hv
    obtain ⟨_, _, _, _, _, _, _, _, ip, _, r, hr, _, _, _, _, rfl⟩ := hv
    obtain ⟨a1, b1⟩ := linearConstraint_maps hr
    exact h.addBool a1 b1 hpos _ (by rw [kind_pos, hk]; intro h; cases h) _ _

theorem Keys.processed (h : Keys s st) (l : List Nat) : Keys s { st with processed := l } :=
  ⟨h.rat, h.bool, h.pos, h.lit⟩

theorem loop_keys {cfg : ICfg} : ∀ (n : Nat) (stk : List (Tm × Nat)) (st : IState), Keys s st →
    ∀ {st' : IState}, loop cfg s n stk st = some st' → Keys s st' := by
  intro n
  induction n with
  | zero =>
    intro stk st hI st' hl
    cases stk with
    | nil => simp only [loop, Option.some.injEq] at hl; rw [← hl]; exact hI
    | cons e stk => simp [loop] at hl
  | succ n ih =>
    intro stk st hI st' hl
    cases stk with
    | nil => simp only [loop, Option.some.injEq] at hl; rw [← hl]; exact hI
    | cons e stk =>
      obtain ⟨t, k⟩ := e
      rw [loop] at hl
      cases hc : (s.args t)[k]? with
      | some c =>
        rw [hc] at hl
        simp only at hl
        split at hl
        · exact ih _ st hI hl
        · exact ih _ st hI hl
      | none =>
        rw [hc] at hl
        simp only [Option.bind_eq_bind, Option.bind_eq_some_iff] at hl
        obtain ⟨_, _, st1, hv, hl⟩ := hl
        exact ih _ _ ((visit_keys hI hv).processed _) hl

theorem roots_keys {cfg : ICfg} : ∀ (ts : List Tm) (st : IState), Keys s st →
    ∀ {st' : IState}, roots cfg s ts st = some st' → Keys s st' := by
  intro ts
  induction ts with
  | nil => intro st hI st' hr; simp only [roots, Option.some.injEq] at hr; rw [← hr]; exact hI
  | cons t ts ih =>
    intro st hI st' hr
    rw [roots] at hr
    split at hr
    · exact ih st hI hr
    · simp only [Option.bind_eq_some_iff] at hr
      obtain ⟨st1, hl, hr⟩ := hr
      exact ih st1 (loop_keys _ _ st hI hl) hr

/-- The interpretation of the constants given by values of the solver's variables. -/
def readBack (st : IState) (m : Assignment) (r : Nat → ℚ) : Interp where
  constB i := match mapFind st.boolVars (Tm.positive i) with
    | some l => if l.isNeg then !m l.ord else m l.ord
    | none => false
  constQ i := match mapFind st.ratVars (Tm.positive i) with
    | some v => r v
    | none => 0
  fnB _ _ := false
  fnQ _ _ := 0

theorem litTrue_val (m : Assignment) (l : Lit) :
    litTrue m l ↔ (if l.isNeg then !m l.ord else m l.ord) = true := by
  unfold litTrue
  cases l.isNeg <;> cases m l.ord <;> simp

theorem readBack_agree (h : WF H s) (hI : IInv s st) (hK : Keys s st) (happ : ∀ t, s.kind t ≠ .app)
    (m : Assignment) (r : Nat → ℚ) : Agree (readBack st m r) s st m r := by
  constructor
  · intro p hp
    obtain ⟨hp, hk⟩ := List.mem_filter.mp hp
    have hk : s.kind p.1 = .uninterpreted := by simpa [happ] using hk
    obtain ⟨hr, _, _⟩ := hI.rat p hp
    obtain ⟨e, he, hek⟩ := entry_of_kind (s := s) (t := p.1) (by rw [hk]; decide)
    have hty := type_of_entry he
    rw [hr.1] at hty
    rw [hk] at hek
    obtain ⟨k, ty, d⟩ := e
    simp only at hek hty
    subst hek hty
    unfold denQ
    rw [h.den he hr.2]
    show r p.2 = (match mapFind st.ratVars (Tm.positive p.1.index) with | some v => r v | none => 0)
    rw [← Tm.eq_positive hr.2, mapFind_of_mem hK.rat hp]
  · intro p hp
    obtain ⟨hp, hk⟩ := List.mem_filter.mp hp
    have hk : s.kind p.1 = .uninterpreted := by simpa [happ] using hk
    have hb := (hI.bool p hp).1
    have hn := hK.pos p hp hk
    obtain ⟨e, he, hek⟩ := entry_of_kind (s := s) (t := p.1) (by rw [hk]; decide)
    have hty := type_of_entry he
    rw [show s.type p.1 = .bool from hb] at hty
    rw [hk] at hek
    obtain ⟨k, ty, d⟩ := e
    simp only at hek hty
    subst hek hty
    unfold denB
    rw [h.den he hn, litTrue_val]
    show _ ↔ (match mapFind st.boolVars (Tm.positive p.1.index) with
      | some l => if l.isNeg then !m l.ord else m l.ord | none => false) = true
    rw [← Tm.eq_positive hn, mapFind_of_mem hK.bool hp]

end Yaga

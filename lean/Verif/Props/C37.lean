/-
C37: hash-consing of terms.
-/
import Verif.Proofs.Terms
import Verif.Spec.TermDescr

namespace Yaga

open TermTable Spec

theorem describes_of_run {H : TermHash} {s : TermTable} (h : HC H s) (op : TermOp) :
    Describes (op.run H s).1 (op.run H s).2 op := by
  obtain ⟨_, _, h3, cst, h4, h5⟩ := run_spec h op
  cases op <;> first | exact ⟨h3, h5⟩ | skip
  obtain ⟨h6, h7⟩ := h4 _ _ rfl
  exact ⟨cst _, ⟨h6, h7⟩, ⟨h3, h5⟩⟩

theorem Is.mono {s s' : TermTable} (h : Ext s s') {t : Tm} {k : Kind} {ty : Ty} {d : Descr}
    (hi : Is s t k ty d) : Is s' t k ty d := ⟨hi.1, h.entry hi.2⟩

theorem Describes.mono {s s' : TermTable} (h : Ext s s') {t : Tm} {op : TermOp}
    (hd : Describes s t op) : Describes s' t op := by
  cases op <;> first | exact Is.mono h hd | skip
  obtain ⟨c', h1, h2⟩ := hd
  exact ⟨c', Is.mono h h1, Is.mono h h2⟩

theorem Is.inj {s : TermTable} {t : Tm} {k k' : Kind} {ty ty' : Ty} {d d' : Descr}
    (h : Is s t k ty d) (h' : Is s t k' ty' d') : k = k' ∧ ty = ty' ∧ d = d' := by
  have := h.2.symm.trans h'.2
  simp only [Option.some.injEq, TEntry.mk.injEq] at this
  exact this

theorem Is.unique {H : TermHash} {s : TermTable} (hs : HC H s) {t t' : Tm} {k : Kind} {ty : Ty}
    {d : Descr} (h : Is s t k ty d) (h' : Is s t' k ty d) (hk : k ≠ .reserved ∧ k ≠ .uninterpreted) :
    t = t' := hs.eq_of_entry h.2 h'.2 hk h.1 h'.1

/-- The kind of the term a construction makes. -/
def kindOf : TermOp → Kind
  | .or _ => .or
  | .constant _ _ => .constant
  | .rational _ => .arithConst
  | .product _ _ => .product
  | .poly _ => .poly
  | .geqZero _ => .arithGe
  | .eqZero _ => .arithEq
  | .binEq _ _ => .arithBinEq
  | .ite _ _ _ => .ite
  | .app _ _ => .app
  | .fresh _ => .uninterpreted

theorem Describes.is {s : TermTable} {t : Tm} {op : TermOp} (h : Describes s t op) :
    ∃ ty d, Is s t (kindOf op) ty d := by
  cases op <;> first | exact ⟨_, _, h⟩ | skip
  obtain ⟨c', _, h2⟩ := h
  exact ⟨_, _, h2⟩

/-- A term is described by one construction only. -/
theorem describes_inj {s : TermTable} {t : Tm} {op op' : TermOp}
    (h : Describes s t op) (h' : Describes s t op') : op = op' := by
  have hk : kindOf op = kindOf op' := by
    obtain ⟨ty, d, h1⟩ := Describes.is h
    obtain ⟨ty', d', h1'⟩ := Describes.is h'
    exact (Is.inj h1 h1').1
  cases op <;> cases op' <;> first | (cases hk; done) | skip
  case product.product c x c' x' =>
    obtain ⟨c1, a1, b1⟩ := h
    obtain ⟨c2, a2, b2⟩ := h'
    obtain ⟨_, _, h3⟩ := Is.inj b1 b2
    simp only [Descr.comp.injEq, List.cons.injEq, and_true] at h3
    obtain ⟨rfl, rfl⟩ := h3
    obtain ⟨_, _, h4⟩ := Is.inj a1 a2
    simp only [Descr.rat.injEq] at h4
    rw [h4]
  all_goals
    simp only [Describes] at h h'
    obtain ⟨h1, h2, h3⟩ := Is.inj h h'
    simp_all

/-- A construction that uses the hash table describes one term only. -/
theorem describes_unique {H : TermHash} {s : TermTable} (hs : HC H s) {t t' : Tm} {op : TermOp}
    (h : Describes s t op) (h' : Describes s t' op) (hf : ¬ IsFresh op) : t = t' := by
  cases op <;> simp only [Describes] at h h' <;>
    first
    | exact Is.unique hs h h' ⟨fun h => Kind.noConfusion h, fun h => Kind.noConfusion h⟩
    | exact absurd trivial hf
    | skip
  obtain ⟨c1, a1, b1⟩ := h
  obtain ⟨c2, a2, b2⟩ := h'
  have : c1 = c2 := Is.unique hs a1 a2 ⟨fun h => Kind.noConfusion h, fun h => Kind.noConfusion h⟩
  subst this
  exact Is.unique hs b1 b2 ⟨fun h => Kind.noConfusion h, fun h => Kind.noConfusion h⟩

/-- C37: the result of a construction has the kind, type and arguments that were asked for — after any
constructions `before`, and still after any further constructions `later`. -/
theorem C37_described (H : TermHash) (before later : List TermOp) (op : TermOp) :
    let s := (TermTable.init H).after H before
    let r := op.run H s
    Describes r.1 r.2 op ∧ Describes (r.1.after H later) r.2 op := by
  intro s r
  have hs := (after_spec before (init_hc H)).1
  have hr := (run_spec hs op).1
  exact ⟨describes_of_run hs op, Describes.mono (after_spec later hr).2 (describes_of_run hs op)⟩

/-- C37: no construction changes an existing entry. -/
theorem C37_persistent (H : TermHash) (before later : List TermOp) (t : Tm) (e : TEntry)
    (he : ((TermTable.init H).after H before).entry t = some e) :
    (((TermTable.init H).after H before).after H later).entry t = some e :=
  (after_spec later (after_spec before (init_hc H)).1).2.entry he

/-- C37: two constructions at any times give the same handle exactly when they are the same construction
(same kind, same type, same arguments or constant) and it is not the creation of a new uninterpreted
constant, whatever the hash functions are. -/
theorem C37_hash_consing (H : TermHash) (before between : List TermOp) (op op' : TermOp) :
    let s := (TermTable.init H).after H before
    let r := op.run H s
    let r' := op'.run H (r.1.after H between)
    r.2 = r'.2 ↔ op = op' ∧ ¬ IsFresh op := by
  intro s r r'
  have hs := (after_spec before (init_hc H)).1
  have hr := (run_spec hs op).1
  have hm := (after_spec between hr)
  have hr' := run_spec hm.1 op'
  have d : Describes r'.1 r.2 op :=
    Describes.mono hr'.2.1 (Describes.mono hm.2 (describes_of_run hs op))
  have d' : Describes r'.1 r'.2 op' := describes_of_run hm.1 op'
  constructor
  · intro h
    rw [h] at d
    refine ⟨describes_inj d d', ?_⟩
    intro hf
    have e := describes_inj d d'
    subst e
    cases op <;> first | exact hf | skip
    rename_i ty
    have h1 : r'.2 = Tm.positive (r.1.after H between).terms.length := rfl
    have h2 : r.2 = Tm.positive s.terms.length := rfl
    have h3 : r.1.terms.length ≤ (r.1.after H between).terms.length := hm.2.length
    have h4 : r.1.terms.length = s.terms.length + 1 := by
      show (s.terms ++ [_]).length = _; simp
    have h5 := Tm.positive_inj (h2.symm.trans (h.trans h1))
    omega
  · rintro ⟨rfl, hf⟩
    exact describes_unique hr'.1 d d' hf

/-- C37: the predefined terms: `true`, `false` and `0`. -/
theorem C37_primitive (H : TermHash) (before : List TermOp) :
    let s := (TermTable.init H).after H before
    Is s Tm.tt .constant .bool (.const 0) ∧ Is s Tm.zero .arithConst .real (.rat 0) ∧
    Tm.ff = Tm.tt.opp ∧ (∀ op : TermOp, (op.run H s).2 = Tm.tt ↔ op = .constant .bool 0) ∧
    (∀ op : TermOp, (op.run H s).2 = Tm.zero ↔ op = .rational 0) := by
  intro s
  have h0 : Is (TermTable.init H) Tm.tt .constant .bool (.const 0) := by
    refine ⟨rfl, ?_⟩
    unfold TermTable.init constantTerm arithConstant TermTable.get
    simp [construct, entry, Tm.positive, Tm.tt, Tm.index]
  have h1 : Is (TermTable.init H) Tm.zero .arithConst .real (.rat 0) := by
    refine ⟨rfl, ?_⟩
    unfold TermTable.init constantTerm arithConstant TermTable.get
    simp [construct, entry, Tm.positive, Tm.zero, Tm.index]
  have hs := after_spec before (init_hc H)
  have g0 := Is.mono hs.2 h0
  have g1 := Is.mono hs.2 h1
  refine ⟨g0, g1, rfl, fun op => ?_, fun op => ?_⟩
  all_goals
    have hr := run_spec hs.1 op
    have hd := describes_of_run hs.1 op
    constructor
  · intro h
    rw [h] at hd
    exact describes_inj hd (op' := .constant .bool 0) (Is.mono hr.2.1 g0)
  · rintro rfl
    exact describes_unique hr.1 hd (Is.mono hr.2.1 g0) id
  · intro h
    rw [h] at hd
    exact describes_inj hd (op' := .rational 0) (Is.mono hr.2.1 g1)
  · rintro rfl
    exact describes_unique hr.1 hd (Is.mono hr.2.1 g1) id

/-- A hash function that maps everything to the same number. -/
def constHash : TermHash := ⟨fun _ _ => 0, fun _ _ => 0, fun _ => 0⟩

/-- With the worst hash functions, `2 * x` built twice is the same term, `3 * x` is another one, and the
constants 2 and 3 are entered once. -/
example :
    let s := ((TermTable.init constHash).after constHash [.fresh .real])
    let x : Tm := ⟨6⟩
    let r := (TermOp.product 2 x).run constHash s
    let r2 := (TermOp.product 3 x).run constHash r.1
    let r3 := (TermOp.product 2 x).run constHash r2.1
    r.2 = ⟨10⟩ ∧ r2.2 = ⟨14⟩ ∧ r3.2 = r.2 ∧ r3.1.terms.length = 8 := by decide +kernel

#print axioms C37_described
#print axioms C37_persistent
#print axioms C37_hash_consing
#print axioms C37_primitive

end Yaga

#print axioms Yaga.C37_described
#print axioms Yaga.C37_persistent
#print axioms Yaga.C37_hash_consing
#print axioms Yaga.C37_primitive

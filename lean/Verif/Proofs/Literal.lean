import Verif.Model.Literal

namespace Yaga
namespace Lit

@[ext] theorem ext' {a b : Lit} (h : a.value = b.value) : a = b := by
  cases a; cases b; simp_all

@[simp] theorem neg_neg (l : Lit) : l.neg.neg = l := by
  apply ext'; simp [neg]

theorem neg_ne (l : Lit) : l.neg ≠ l := by
  intro h
  have := congrArg Lit.value h
  have hn := l.ne
  simp [neg] at this
  omega

theorem ne_neg (l : Lit) : l ≠ l.neg := fun h => neg_ne l h.symm

@[simp] theorem ord_neg (l : Lit) : l.neg.ord = l.ord := by simp [neg, ord]

@[simp] theorem var_neg (l : Lit) : l.neg.var = l.var := by simp [var]

theorem isNeg_neg (l : Lit) : l.neg.isNeg = !l.isNeg := by
  have := l.ne
  simp only [neg, isNeg]
  by_cases h : l.value < 0
  · have : ¬ (-l.value < 0) := by omega
    simp [h]; omega
  · have : -l.value < 0 := by omega
    simp [h]; omega

@[simp] theorem ord_pos (n : Nat) : (pos n).ord = n := by
  simp only [pos, ord]; omega

@[simp] theorem isNeg_pos (n : Nat) : (pos n).isNeg = false :=
  decide_eq_false (by show ¬ ((n : Int) + 1 < 0); omega)

theorem ext_iff' {a b : Lit} : a = b ↔ a.ord = b.ord ∧ a.isNeg = b.isNeg := by
  constructor
  · rintro rfl; simp
  · rintro ⟨h1, h2⟩
    apply ext'
    have ha := a.ne
    have hb := b.ne
    simp only [ord, isNeg] at h1 h2
    have h2' : (a.value < 0) ↔ (b.value < 0) := by simpa using h2
    omega

theorem eq_or_eq_neg_of_ord {a b : Lit} (h : a.ord = b.ord) : a = b ∨ a = b.neg := by
  by_cases hn : a.isNeg = b.isNeg
  · exact Or.inl (ext_iff'.2 ⟨h, hn⟩)
  · right
    rw [ext_iff']
    refine ⟨by simpa using h, ?_⟩
    rw [isNeg_neg]
    cases ha : a.isNeg <;> cases hb : b.isNeg <;> simp_all

theorem index_inj {a b : Lit} (h : a.index = b.index) : a = b := by
  rw [ext_iff']
  simp only [index] at h
  cases ha : a.isNeg <;> cases hb : b.isNeg <;> simp_all <;> omega

@[simp] theorem ord_ofVal (n : Nat) (b : Bool) : (ofVal n b).ord = n := by
  cases b <;> simp [ofVal]

@[simp] theorem isNeg_ofVal (n : Nat) (b : Bool) : (ofVal n b).isNeg = !b := by
  cases b <;> simp [ofVal, isNeg_neg]

theorem ofVal_self (l : Lit) : ofVal l.ord (!l.isNeg) = l := by
  rw [ext_iff']; simp

theorem neg_ofVal (n : Nat) (b : Bool) : (ofVal n b).neg = ofVal n (!b) := by
  cases b <;> simp [ofVal]

end Lit

namespace Var

theorem lt_irrefl (a : Var) : a.lt a = false := by simp [lt]

theorem lt_trans {a b c : Var} (h1 : a.lt b = true) (h2 : b.lt c = true) : a.lt c = true := by
  simp only [lt, Bool.or_eq_true, decide_eq_true_eq, Bool.and_eq_true, beq_iff_eq] at *
  omega

theorem lt_trichotomy (a b : Var) : a.lt b = true ∨ a = b ∨ b.lt a = true := by
  rcases a with ⟨ta, oa⟩
  rcases b with ⟨tb, ob⟩
  cases ta <;> cases tb <;> simp [lt, VType.toNat]
  all_goals omega

end Var
end Yaga

/-
The term manager makes applications of uninterpreted functions only when it is asked to.
-/
import Verif.Proofs.Stays

namespace Yaga

open Spec TermTable

variable {H : TermHash}

/-- The applications of the table have the property `P`. -/
def AppIn (P : TEntry → Prop) (s : TermTable) : Prop := ∀ e ∈ s.terms, e.kind = .app → P e

namespace AppIn

variable {P : TEntry → Prop} {s : TermTable}

theorem construct (h : AppIn P s) {e : TEntry} (he : e.kind = .app → P e) : AppIn P (s.construct e).1 := by
  intro x hx
  rcases List.mem_append.mp hx with hx | hx
  · exact h x hx
  · rw [List.mem_singleton.mp hx]; exact he

instance : Closed (fun l => ∀ e ∈ l, e.kind = .app → P e) :=
  ⟨fun l _ h he _ => construct (s := ⟨l, []⟩) h fun hk => absurd hk he⟩

theorem get (h : AppIn P s) {n : Nat} {e : TEntry} (he : e.kind = .app → P e) : AppIn P (s.get n e).1 := by
  unfold TermTable.get
  split
  · exact h
  · exact h.construct he

theorem fresh (h : AppIn P s) (ty : Ty) : AppIn P (s.fresh ty).1 := h.construct nofun

theorem arithConstant (h : AppIn P s) (q : ℚ) : AppIn P (s.arithConstant H q).1 := h.get nofun

theorem init : AppIn P (TermTable.init H) := by
  have h0 : AppIn P ⟨[⟨.reserved, .null, .none⟩], []⟩ := by
    intro e he
    rw [List.mem_singleton.mp he]; nofun
  have h1 : AppIn P (TermTable.constantTerm H ⟨[⟨.reserved, .null, .none⟩], []⟩ .bool 0).1 := h0.get nofun
  exact h1.arithConstant 0

theorem mkTermOp (h : AppIn P s) (op : String) (as : List Tm) {q : TermTable × Tm}
    (hq : Names.mkTermOp H s op as = some q) : AppIn P q.1 :=
  Stays.mkTermOp (M := fun l => ∀ e ∈ l, e.kind = .app → P e) (show Stays _ _ from h) op as q hq

end AppIn
end Yaga

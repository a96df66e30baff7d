/-
The response to `get-model` is read as a list of definitions.
-/
import Verif.Proofs.PrintFnc

namespace Yaga
namespace PrintModel

open Spec

variable {pr : ℚ → LF} {R : Type}

theorem find_zip {α β : Type} [BEq α] [LawfulBEq α] : ∀ (xs : List α) (ys : List β), xs.Nodup → ∀ p ∈ xs.zip ys,
    (xs.zip ys).find? (fun q => q.1 == p.1) = some p
  | [], _, _, p, hp => by simp at hp
  | _ :: _, [], _, p, hp => by simp at hp
  | x :: xs, y :: ys, hn, p, hp => by
    rw [List.zip_cons_cons] at hp ⊢
    rcases List.mem_cons.mp hp with rfl | hp'
    · simp
    · have hne : x ≠ p.1 := by
        rintro rfl
        exact (List.nodup_cons.mp hn).1 (List.of_mem_zip (a := p.1) (b := p.2) hp').1
      rw [List.find?_cons_of_neg (by simpa using hne)]
      exact find_zip xs ys (List.nodup_cons.mp hn).2 p hp'

theorem names_nodup (n : Nat) : ((List.range n).map argName).Nodup :=
  List.Nodup.map (fun _ _ h => argName_inj h) List.nodup_range

theorem value_arg {n : Nat} {args : List Spec.Val} : ∀ p ∈ ((List.range n).map argName).zip args,
    (SExp.atom p.1).value (((List.range n).map argName).zip args) = some p.2 := by
  intro p hp
  obtain ⟨i, _, hi⟩ := List.mem_map.mp (List.of_mem_zip hp).1
  rw [SExp.value, find_zip _ _ (names_nodup n) p hp, ← hi, if_neg (by simp [argName]), if_neg (by simp [argName])]

theorem noNumeral_args (n : Nat) (args : List Spec.Val) : NoNumeral (((List.range n).map argName).zip args) := by
  intro p hp m
  obtain ⟨i, _, hi⟩ := List.mem_map.mp (List.of_mem_zip hp).1
  rw [← hi]
  exact argName_no_numeral i m

theorem params_names (args : List Val) (k : Nat) : (((args.zipIdx k).map fun p => (argName p.2, sortOf p.1)).map (·.1)) =
    (List.range' k args.length).map argName := by
  induction args generalizing k with
  | nil => rfl
  | cons a as ih => simp [ih, List.range'_succ]

theorem params_sorts (args : List Val) (k : Nat) : (((args.zipIdx k).map fun p => (argName p.2, sortOf p.1)).map (·.2)) =
    args.map sortOf := by
  induction args generalizing k with
  | nil => rfl
  | cons a as ih => simp [ih]

theorem zip_snd {α β γ : Type} (P : α → γ → Prop) : ∀ (xs : List α) (ys : List (β × γ)),
    (∀ p ∈ xs.zip ys, P p.1 p.2.2) ↔ ∀ p ∈ xs.zip (ys.map (·.2)), P p.1 p.2
  | [], _ => by simp
  | _ :: _, [] => by simp
  | x :: xs, y :: ys => by
    simp only [List.map_cons, List.zip_cons_cons, List.forall_mem_cons]
    rw [zip_snd P xs ys]

/-- What the definition of a function gives. -/
theorem gives_fn (hp : Numbers pr) (n : List Char) {args0 : List Val} (h0 : args0 ≠ []) (dflt : Val)
    (es : List (List Val × Val)) (hs : ∀ e ∈ es, e.1.map sortOf = args0.map sortOf)
    (hd : ∀ e ∈ es, sortOf e.2 = sortOf dflt) (args : List Spec.Val) (w : Spec.Val) :
    (fnDef pr n args0 dflt es).Gives args w ↔ args.length = args0.length ∧
      (∀ p ∈ args.zip (args0.map sortOf), p.1.has p.2 = true) ∧ w = ofVal (pickEntry es dflt args) := by
  have e1 : (fnDef pr n args0 dflt es).params.map (·.1) = (List.range args0.length).map argName := by
    rw [List.range_eq_range']
    exact params_names args0 0
  have e2 : (fnDef pr n args0 dflt es).params.map (·.2) = args0.map sortOf := params_sorts args0 0
  have e3 : (fnDef pr n args0 dflt es).params.length = args0.length := by
    rw [← List.length_map (f := (·.1)), e1]; simp
  unfold Def.Gives
  rw [zip_snd (fun (v : Spec.Val) so => v.has so = true), e1, e2, e3]
  constructor
  · rintro ⟨h1, h2, _, h4⟩
    refine ⟨h1, h2, ?_⟩
    have := value_chain (pr := pr) hp (noNumeral_args args0.length args) (by simpa using h0) (by simp [h1]) (by simp [h1])
      value_arg h2 dflt es hs hd
    exact (Option.some.inj (this.symm.trans h4)).symm
  · rintro ⟨h1, h2, rfl⟩
    refine ⟨h1, h2, ?_, ?_⟩
    · exact (ofVal_has _ _).mpr (pickEntry_sort hd args)
    · exact value_chain (pr := pr) hp (noNumeral_args args0.length args) (by simpa using h0) (by simp [h1]) (by simp [h1])
        value_arg h2 dflt es hs hd

/-- The constants that are printed. -/
def constOf (nm : Tm → Option (List Char)) (s : TermTable) (tr : Trail R) (p : Tm × Var) : Option (List Char × Val) :=
  if s.kind p.1 ≠ .uninterpreted then none
  else
    match nm p.1 with
    | none => none
    | some n =>
      match p.2.type with
      | .boolean => if tr.bools.defined p.2.ord then some (n, .b (tr.bools.value p.2.ord)) else none
      | .rational => if tr.rats.defined p.2.ord then some (n, .q (tr.rats.value p.2.ord)) else none

theorem constant_eq (nm : Tm → Option (List Char)) (s : TermTable) (tr : Trail R) (p : Tm × Var) :
    constant pr nm s tr p = match constOf nm s tr p with
      | none => []
      | some r => visit pr (some r.1) r.2 := by
  unfold constant constOf
  by_cases hk : s.kind p.1 = .uninterpreted
  · simp only [hk, ne_eq, not_true_eq_false, if_false]
    cases hn : nm p.1 with
    | none => cases p.2.type <;> simp only <;> split <;> rfl
    | some n => cases p.2.type <;> simp only <;> split <;> rfl
  · simp only [ne_eq, hk, not_false_eq_true, if_true]

theorem shows_visit_starts (n : List Char) (v : Val) : Starts (visit pr (some n) v) := by
  rw [visit_some, text_define]
  exact starts_cons (c := '(') (by decide)

theorem shows_constants (hp : Numbers pr) (nm : Tm → Option (List Char)) (s : TermTable) (tr : Trail R)
    (vs : List (Tm × Var)) (hn : ∀ p ∈ vs, ∀ r, constOf nm s tr p = some r → GoodName r.1) :
    Starts (vs.flatMap (constant pr nm s tr)) ∧ Shows (vs.flatMap (constant pr nm s tr))
      ((vs.filterMap (constOf nm s tr)).map fun r => constExp pr r.1 r.2) := by
  induction vs with
  | nil => exact ⟨starts_nil, shows_nil⟩
  | cons p vs ih =>
    obtain ⟨h1, h2⟩ := ih fun q hq => hn q (by simp [hq])
    rw [List.flatMap_cons, constant_eq]
    cases hc : constOf nm s tr p with
    | none =>
      rw [List.filterMap_cons_none hc]
      exact ⟨h1, h2⟩
    | some r =>
      rw [List.filterMap_cons_some hc]
      exact ⟨starts_append (shows_visit_starts _ _) h1, shows_append (shows_visit hp (hn p (by simp) r hc) r.2) h2 h1⟩

/-- The definition that is printed for a function. -/
def fnOf (pr : ℚ → LF) (nm : Tm → Option (List Char)) (p : Tm × List (List Val × Val)) : Option Def :=
  match nm p.1, p.2 with
  | some n, e :: es => some (fnDef pr n e.1 e.2 es)
  | _, _ => none

/-- The tables can be printed. -/
def Printable (nm : Tm → Option (List Char)) (p : Tm × List (List Val × Val)) : Prop :=
  ∀ n, nm p.1 = some n → GoodName n ∧ ∃ e es, p.2 = e :: es ∧ ∀ x ∈ es, x.1.length ≤ e.1.length

theorem shows_functions (hp : Numbers pr) (nm : Tm → Option (List Char)) (ps : List (Tm × List (List Val × Val)))
    (hn : ∀ p ∈ ps, Printable nm p) :
    ∃ t es, functions pr nm ps = some t ∧ Starts t ∧ Shows t es ∧ es.mapM readDef = some (ps.filterMap (fnOf pr nm)) := by
  induction ps with
  | nil => exact ⟨[], [], rfl, starts_nil, shows_nil, rfl⟩
  | cons p ps ih =>
    obtain ⟨t, es, h1, h2, h3, h4⟩ := ih fun q hq => hn q (by simp [hq])
    cases hm : nm p.1 with
    | none =>
      refine ⟨t, es, ?_, h2, h3, ?_⟩
      · simp [functions, hm, visitFnc, h1]
      · rw [List.filterMap_cons_none (by simp [fnOf, hm])]
        exact h4
    | some n =>
      obtain ⟨hg, e, xs, he, hl⟩ := hn p (by simp) n hm
      obtain ⟨a, g1, g2, g3⟩ := shows_visitFnc hp hg e.1 e.2 xs hl
      refine ⟨a ++ t, fnExp pr n e.1 e.2 xs :: es, ?_, starts_append g2 h2, shows_append g3 h3 h2, ?_⟩
      · rw [functions, hm, he, g1, h1]
      · rw [List.filterMap_cons_some (b := fnDef pr n e.1 e.2 xs) (by simp [fnOf, hm, he])]
        simp [readDef_fn, h4]

theorem mapM_append {α β : Type} (f : α → Option β) (xs ys : List α) {as bs : List β} (h1 : xs.mapM f = some as)
    (h2 : ys.mapM f = some bs) : (xs ++ ys).mapM f = some (as ++ bs) := by
  simp [h1, h2]

theorem mapM_consts (rs : List (List Char × Val)) : (rs.map fun r => constExp pr r.1 r.2).mapM readDef =
    some (rs.map fun r => constDef pr r.1 r.2) := by
  induction rs with
  | nil => rfl
  | cons r rs ih => simp [readDef_const, ih]

/-- The response is read as the definitions of the constants and the functions. -/
theorem getModel_reads (hp : Numbers pr) (nm : Tm → Option (List Char)) (s : TermTable) (tr : Trail R)
    (vs : List (Tm × Var)) (hv : ∀ p ∈ vs, ∀ r, constOf nm s tr p = some r → GoodName r.1)
    (ps : List (Tm × List (List Val × Val))) (hn : ∀ p ∈ ps, Printable nm p) :
    ∃ text, getModel pr nm s tr vs ps = some text ∧ readModel text =
      some ((vs.filterMap (constOf nm s tr)).map (fun r => constDef pr r.1 r.2) ++ ps.filterMap (fnOf pr nm)) := by
  obtain ⟨_, c2⟩ := shows_constants hp nm s tr vs hv
  obtain ⟨t, es, h1, h2, h3, h4⟩ := shows_functions hp nm ps hn
  have g1 := shows_append (shows_list (shows_append c2 h3 h2)) (shows_space (c := '\n') (by decide) shows_nil)
    (starts_cons (by decide))
  refine ⟨_, by rw [getModel, h1]; rfl, ?_⟩
  have e : "(".toList ++ vs.flatMap (constant pr nm s tr) ++ t ++ ")\n".toList =
      '(' :: (vs.flatMap (constant pr nm s tr) ++ t ++ [')']) ++ ['\n'] := by
    rw [text_end, show "(".toList = ['('] by decide]
    simp
  unfold readModel
  show (match readText ("(".toList ++ vs.flatMap (constant pr nm s tr) ++ t ++ ")\n".toList) with
    | some [.list l] => l.mapM readDef
    | _ => none) = _
  rw [e, readText_of_shows g1]
  show List.mapM readDef _ = _
  exact mapM_append _ _ _ (mapM_consts _) h4

end PrintModel
end Yaga

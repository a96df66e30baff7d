/-
Every iteration of the main loop of QF_LRA and of QF_UFLRA that is no restart and creates no variable increases
the measure of the trail.
-/
import Verif.Proofs.TrailProgress
import Verif.Proofs.UfLraEnds

namespace Yaga
open LinStore (Kept)
namespace Qf
open Spec BS Check Progress
variable {hv : Nat → Nat} {hc : ℚ → Nat} {op : LaOpts} {S : LinStore} {A : List Clause}
  {b : Bool} {O : Type} {W : QOrder O} {Th : Assignment → Prop} {Q : (Nat → ℚ) → Prop}

/-! ### Propagation -/

theorem fwd_propagates {s s' : BS} {c : Option Clause} (h : Check.Good Th A b s) (hp : Propagates s c s') :
    Fwd s.t s'.t := by
  obtain ⟨s0, a1, a2, a3, -, -, -, -, hx, -⟩ := propagates_spec (Q := fun _ => False)
    h.base.inv h.base.db (fun h' => h.base.ws (Or.inr h')) (by simp) (by simp) hp
  have := (assigns_fwd (by rw [a2]; exact h.base.inv) hx.steps).1
  rwa [a2] at this

theorem fwd_frame {la0 la' : LA Nat} (h : LA.Frame la0 la') : Fwd la0.trail la'.trail where
  dl := h.dl
  lists i := by obtain ⟨e, he⟩ := h.asg i; exact ⟨e, he.symm⟩
  old := h.lvl
  rats := by rw [h.rats]
  bools := h.num

theorem fwd_lra {st : Yaga.Stage} {s : BS} {la la' : LA Nat} {cs : List Clause} (h : CoreQ Q hv hc op S A true st ⟨s, la⟩)
    (hp : la.propagate hv hc op = (la', cs)) : Fwd s.t la'.trail := by
  obtain ⟨w, hg⟩ := h.reach.good
  obtain ⟨g1, g2, -⟩ := hg.propagate (o := op)
  simp only at g1 g2
  rw [hp] at g1 g2
  have ht : la.trail = s.t := h.trail
  rw [← ht]
  exact fwd_frame (la0 := la.takeAssigned.1) g2

theorem fwd_prop {q q' : QS} {cs : List Clause} (hp : QProp hv hc op q cs q') :
    ∀ {b : Bool} {st : Yaga.Stage}, CoreQ Q hv hc op S A b st q → st ≠ .conflict → Fwd q.s.t q'.s.t := by
  induction hp with
  | @boolConflict q s c h =>
    intro b st hC hs
    obtain ⟨w, hg⟩ := hC.reach.good
    exact fwd_propagates (hC.good q.la.store hg.keep.base.inv (Kept.refl _)) h
  | @lraConflict q s la cs h hp hne =>
    intro b st hC hs
    obtain ⟨w, hg⟩ := hC.reach.good
    have h1 := fwd_propagates (hC.good q.la.store hg.keep.base.inv (Kept.refl _)) h
    obtain ⟨st', h2, h3, -⟩ := core_bool hC hs h
    exact h1.trans (fwd_lra h3 hp)
  | @done q s la h hp hz =>
    intro b st hC hs
    obtain ⟨w, hg⟩ := hC.reach.good
    have h1 := fwd_propagates (hC.good q.la.store hg.keep.base.inv (Kept.refl _)) h
    obtain ⟨st', h2, h3, -⟩ := core_bool hC hs h
    exact h1.trans (fwd_lra h3 hp)
  | @again q q' s la cs h hp hz hr ih =>
    intro b st hC hs
    obtain ⟨w, hg⟩ := hC.reach.good
    have h1 := fwd_propagates (hC.good q.la.store hg.keep.base.inv (Kept.refl _)) h
    obtain ⟨st', h2, h3, -⟩ := core_bool hC hs h
    obtain ⟨g1, -⟩ := core_lra h3 h2 hp
    refine (h1.trans (fwd_lra h3 hp)).trans (ih g1 ?_)
    rw [if_neg (by simp)]
    split <;> simp

/-! ### The end of an iteration -/

/-- The measure increased and no variable was created. -/
structure Up (t t' : Trail Nat) : Prop where
  lt : measure t < measure t'
  bools : t'.bools.num = t.bools.num
  rats : t'.rats.num = t.rats.num
  ne : t'.isEmpty = false

theorem not_empty {t : Trail Nat} (hi : t.Inv) {v : Var} {l : Nat} (h : t.level v = some l) : t.isEmpty = false := by
  cases he : t.isEmpty with
  | false => rfl
  | true => rw [isEmpty_level hi he v] at h; cases h

theorem not_empty_decide {t : Trail Nat} (hi : t.Inv) {v : Var} {x : Val} (hp : t.Pre (.decide v x)) :
    ((t.decide v).setValue v x).isEmpty = false :=
  not_empty (grow_decide hi hp).inv (v := v) (l := t.levels.length) (by simp [Trail.decide])

theorem up_decide {t : Trail Nat} (hi : t.Inv) {v : Var} {x : Val} (hp : t.Pre (.decide v x)) :
    Up t ((t.decide v).setValue v x) :=
  ⟨decide_measure hi hp, by rw [numBools_setValue]; rfl, by rw [rats_setValue]; rfl, not_empty_decide hi hp⟩

theorem propHeads_head (L : Nat) {x : Lit} {rest : Clause} (cs : List Clause) (r : Nat) (s : BS) (hi : s.t.Inv)
    (hdl : s.t.decisionLevel = L) (hn : ∀ c ∈ (x :: rest) :: cs, ∀ y ∈ c.head?, y.ord < s.t.bools.num)
    (hu : s.t.level x.var = none) : (propHeads L ((x :: rest) :: cs) r s).t.level x.var = some L := by
  have hx : x.ord < s.t.bools.num := hn (x :: rest) List.mem_cons_self x rfl
  have hg := grow_propagate hi (v := x.var) (r := some r) (lvl := L)
    (x := .b (!x.isNeg)) ⟨hx, hu, rfl, hdl.ge⟩
  have hde : ¬ s.t.bools.defined x.ord = true := by
    intro h
    obtain ⟨k, hk⟩ := (hi.defined x.var).1 h
    rw [hu] at hk; cases hk
  unfold propHeads
  rw [if_neg hde]
  have hd' : (s.assignLit x (some r) L).t.decisionLevel = L := by
    simpa [assignLit, Trail.decisionLevel, Trail.propagate] using hdl
  have hn' : (s.assignLit x (some r) L).t.bools.num = s.t.bools.num := by
    simp [assignLit, numBools_setValue, Trail.propagate]
  have ha := propHeads_assigns L cs (r + 1) (s.assignLit x (some r) L) hg.inv hd' (by
    intro c hc y hy
    rw [hn']
    exact hn c (List.mem_cons_of_mem _ hc) y hy)
  refine (assigns_fwd hg.inv ha).1.old _ _ ?_
  simp [Trail.propagate]

theorem up_uip {st : Yaga.Stage} {q : QS} (h1 : CoreQ Q hv hc op S A true st q) (hd : DecOk q.s.t)
    (hB : BoolOk A .conflict q.s) {cs : List Clause} (hne : cs ≠ []) (h2 : Confl Q A q cs) (h0 : q.s.t.decisionLevel ≠ 0)
    {ls : List Clause} {L : Nat} (hl : Learned q.s cs ls L) (hsp : ls.head?.any (isSemanticSplit q.s.t) = false) :
    Up q.s.t (uip q ls L).s.t := by
  obtain ⟨w, hg⟩ := h1.reach.good
  have hI := hg.keep.base.inv
  have hG := h1.good _ hI (Kept.refl _)
  have hi := hG.base.inv
  obtain ⟨-, h3⟩ := handled h1 hd hB hne h2
  obtain ⟨hL, h4⟩ := h3 ls L hl
  obtain ⟨-, ha⟩ := uip_trail h1 h2 h0 hl
  obtain ⟨-, -, -, -, hls⟩ := learned_shape hi hG.rok hB.tight hB.zero hne (fun c hc => (h2 c hc).1) hl
  have hL' : L ≤ q.s.t.decisionLevel := by omega
  have hib := Trail.backtrack_inv hi L hL'
  obtain ⟨n1, n2⟩ := backtrack_nums hi hL'
  obtain ⟨hf, hi'⟩ := assigns_fwd hib ha
  suffices hx : ∃ v, (q.s.t.backtrack L).level v = none ∧ (uip q ls L).s.t.level v = some L by
    obtain ⟨v, v1, v2⟩ := hx
    exact ⟨uip_measure hi hL' ha v1 v2, (assigns_num ha).trans n1, hf.rats.trans n2, not_empty hi' v2⟩
  cases ls with
  | nil => exact absurd rfl hls
  | cons d ds =>
    have h5 : ∀ c ∈ d :: ds, ∃ x rest, c = x :: rest ∧ x.ord < q.s.t.bools.num ∧
        (q.s.t.backtrack L).level x.var = none := by
      rcases h4 with ⟨h5, -⟩ | ⟨-, h5⟩
      · have := h5 d List.mem_cons_self
        simp [this] at hsp
      · intro c hc
        obtain ⟨x, rest, e1, e2, e3, -⟩ := h5 c hc
        exact ⟨x, rest, e1, e2, e3⟩
    obtain ⟨x, rest, rfl, e2, e3⟩ := h5 d List.mem_cons_self
    refine ⟨x.var, e3, ?_⟩
    have l1 := (learned_spec hG (fun c hc => ⟨(h2 c hc).1, (h2 c hc).2 _ hI (Kept.refl _)⟩) hl).1
    have e := (good_learnAll hG l1).2.1
    have hb : ((q.s.learnAll ((x :: rest) :: ds)).backtrackTo L).t = q.s.t.backtrack L := by
      show (q.s.learnAll ((x :: rest) :: ds)).t.backtrack L = _
      rw [e]
    refine propHeads_head (rest := rest) L ds _ _ (by rw [hb]; exact hib)
      (by rw [hb]; exact Trail.decisionLevel_backtrack hi L hL') ?_ (by rw [hb]; exact e3)
    intro c hc y hy
    rw [hb, n1]
    obtain ⟨x', rest', rfl, e5, -⟩ := h5 c hc
    cases hy
    exact e5

theorem up_split {st : Yaga.Stage} {q : QS} (h1 : CoreQ Q hv hc op S A true st q) (hd : DecOk q.s.t)
    (hB : BoolOk A .conflict q.s) {cs : List Clause} (hne : cs ≠ []) (h2 : Confl Q A q cs)
    {ls : List Clause} {L : Nat} (hl : Learned q.s cs ls L) {c0 : Clause} {x : Lit} (hc0 : ls.head? = some c0)
    (hsp : isSemanticSplit q.s.t c0 = true) (hx : x ∈ topLits q.s.t c0)
    (hu : (q.s.t.backtrack L).level x.var = none) : Up q.s.t (split q ls L x).s.t := by
  obtain ⟨w, hg⟩ := h1.reach.good
  have hI := hg.keep.base.inv
  have hG := h1.good _ hI (Kept.refl _)
  have hi := hG.base.inv
  obtain ⟨-, h3⟩ := handled h1 hd hB hne h2
  obtain ⟨hL, h4⟩ := h3 ls L hl
  have hm := List.mem_of_mem_head? hc0
  have hL' : L ≤ q.s.t.decisionLevel := by omega
  obtain ⟨n1, n2⟩ := backtrack_nums hi hL'
  have l1 := (learned_spec hG (fun c hc => ⟨(h2 c hc).1, (h2 c hc).2 _ hI (Kept.refl _)⟩) hl).1
  have e := (good_learnAll hG l1).2.1
  have hb : ((q.s.learnAll ls).backtrackTo L).t = q.s.t.backtrack L := by
    show (q.s.learnAll ls).t.backtrack L = _
    rw [e]
  show Up q.s.t ((((q.s.learnAll ls).backtrackTo L).t.decide x.var).setValue x.var (.b (!x.isNeg)))
  rw [hb]
  rcases h4 with ⟨-, h5, a, ha1, ha2⟩ | ⟨h5, -⟩
  · have hxn : x.ord < (q.s.t.backtrack L).bools.num := by
      rw [n1]; exact ((h5 c0 hm).2 x hx).2.1
    exact ⟨split_measure (o := x.ord) hi hL ⟨hxn, hu, rfl⟩ ha1 ha2,
      by rw [numBools_setValue]; exact n1, by rw [rats_setValue]; exact n2,
      not_empty_decide (v := .bool x.ord) (Trail.backtrack_inv hi L hL') ⟨hxn, hu, rfl⟩⟩
  · rw [h5 c0 hm] at hsp; cases hsp

theorem up_decideBool {st : Yaga.Stage} {q : QS} (h1 : CoreQ Q hv hc op S A true st q) {n : Nat}
    (g1 : n < q.s.t.bools.num) (g2 : q.s.t.level (.bool n) = none) : Up q.s.t (q.s.decide (.bool n)).t := by
  obtain ⟨w, hg⟩ := h1.reach.good
  have hG := h1.good _ hg.keep.base.inv (Kept.refl _)
  obtain ⟨b, e⟩ := decide_eq_decideOther q.s n
  rw [e]
  exact up_decide (v := .bool n) (x := .b b) hG.base.inv ⟨g1, g2, rfl⟩

theorem up_decideRat {q : QS} {la0 la : LA Nat} (h1 : CoreQ Q hv hc op S A true .settled ⟨q.s, la0⟩)
    {n fuel : Nat} (g1 : n < q.s.t.rats.num) (g2 : q.s.t.level (.rat n) = none) (hde : la0.decide fuel n = some la) :
    Up q.s.t la.trail := by
  obtain ⟨w, hg⟩ := h1.reach.good
  have hG := h1.good _ hg.keep.base.inv (Kept.refl _)
  have hx : n < la0.trail.rats.num := by rw [h1.trail]; exact g1
  have hu : la0.level n = none := by
    show la0.trail.level ⟨.rational, n⟩ = none
    rw [h1.trail]; exact g2
  have hw := hg.normal (by rintro ⟨⟩)
  subst hw
  obtain ⟨_, _, _, e3, v, e4⟩ := LA.Keep.decide hg.keep (by
    rintro o (⟨h1, _⟩ | ⟨_, h2⟩ | h1)
    · omega
    · rw [hg.settled rfl] at h2; cases h2
    · exact absurd h1 LA.not_fresh) (fun k o => LA.not_fresh) hx hu hde
  rw [e4, h1.trail]
  exact up_decide (v := .rat n) hG.base.inv ⟨g1, g2, rfl⟩

/-- One iteration: a restart, or propagation followed by a step that increases the measure. -/
theorem iter_up {st : Yaga.Stage} {c c' : QC O} (h : CoreQ Q hv hc op S A b st c.q)
    (hs : st ≠ .conflict) (hd : DecOk c.q.s.t) (hB : BoolInv A c.q.s) (hP : PicksFree hv hc op W c)
    (hi : Iter hv hc op W c (.run c')) :
    (∃ cs q ls, cs ≠ [] ∧ QProp hv hc op c.q cs q ∧ c'.q = restart q ls c.old) ∨ ∃ t, Fwd c.q.s.t t ∧ Up t c'.q.s.t := by
  cases hi with
  | @restart cs q ls lvl o hp hne h0 hl he => exact Or.inl ⟨cs, q, ls, hne, hp, rfl⟩
  | @uip cs q ls L o hp hne h0 hl he hsp =>
    obtain ⟨st', h1, _, h2⟩ := core_prop hp h hs
    have hB' := bool_prop hp h hs hB
    rw [if_neg hne] at hB'
    exact Or.inr ⟨_, fwd_prop hp h hs, up_uip h1 (dec_prop hp h hs hd) hB' hne h2 h0 hl hsp⟩
  | @split cs q ls L o c0 x hp hne h0 hl he hc0 hsp hx hu =>
    obtain ⟨st', h1, _, h2⟩ := core_prop hp h hs
    have hB' := bool_prop hp h hs hB
    rw [if_neg hne] at hB'
    exact Or.inr ⟨_, fwd_prop hp h hs, up_split h1 (dec_prop hp h hs hd) hB' hne h2 hl hc0 hsp hx hu⟩
  | @decideBool q o la0 n hp hpk =>
    obtain ⟨st', h1, h3, _⟩ := core_prop hp h hs
    obtain ⟨g1, g2⟩ := hP _ _ _ _ hp hpk
    rw [h1.trail] at g1 g2
    exact Or.inr ⟨_, fwd_prop hp h hs, up_decideBool h1 g1 g2⟩
  | @decideRat q o la0 n fuel la hp hpk hde =>
    obtain ⟨st', h1, h3, _⟩ := core_prop hp h hs
    rw [h3 rfl] at h1
    obtain ⟨g1, g2⟩ := hP _ _ _ _ hp hpk
    rw [h1.trail] at g1 g2
    exact Or.inr ⟨_, fwd_prop hp h hs, up_decideRat (core_queried h1 (W.queried hpk)) g1 g2 hde⟩

/-- A run of steps, each of which increases the measure unless it creates variables, is short if it creates none. -/
theorem run_bound {T : Nat → Trail Nat} {k : Nat} (h : ∀ i < k, ∃ t, Fwd (T i) t ∧ Up t (T (i + 1)))
    (hn : (T k).bools.num = (T 0).bools.num) :
    k < (2 * ((T 0).bools.num + (T 0).rats.num + 1)) ^ ((T 0).bools.num + (T 0).rats.num + 1) := by
  have hmono : ∀ i j, i ≤ j → j ≤ k → (T i).bools.num ≤ (T j).bools.num := by
    intro i j hij hj
    induction j, hij using Nat.le_induction with
    | base => exact le_refl _
    | succ j hij ih =>
      obtain ⟨t, h1, h2⟩ := h j (by omega)
      have := ih (by omega)
      have := h1.bools
      have := h2.bools
      omega
  have key : ∀ i ≤ k, i ≤ measure (T i) ∧ (T i).bools.num = (T 0).bools.num ∧ (T i).rats.num = (T 0).rats.num := by
    intro i
    induction i with
    | zero => exact fun _ => ⟨Nat.zero_le _, rfl, rfl⟩
    | succ i ih =>
      intro hi
      obtain ⟨i1, i2, i3⟩ := ih (by omega)
      obtain ⟨t, h1, h2⟩ := h i (by omega)
      have m1 := hmono 0 (i + 1) (by omega) hi
      have m2 := hmono (i + 1) k hi (le_refl _)
      have m3 := h1.bools
      have m4 := h2.bools
      have hle := h1.measure (by omega)
      have := h2.lt
      exact ⟨by omega, by omega, (h2.rats.trans h1.rats).trans i3⟩
  obtain ⟨k1, k2, k3⟩ := key k (le_refl _)
  have := measure_lt_pow (T k)
  rw [size, k2, k3] at this
  omega

/-- An endless run of such steps and of restarts. -/
theorem run_endless {T : Nat → Trail Nat}
    (h : ∀ i, (T (i + 1)).isEmpty = true ∨ ∃ t, Fwd (T i) t ∧ Up t (T (i + 1))) :
    (∀ n, ∃ i, n < i ∧ (T i).isEmpty = true) ∨ ∀ n, ∃ i, n < (T i).bools.num := by
  by_contra hcon
  push Not at hcon
  obtain ⟨⟨n, h1⟩, N, h2⟩ := hcon
  have h3 : ∀ i, n ≤ i → ∃ t, Fwd (T i) t ∧ Up t (T (i + 1)) := by
    intro i hi
    exact (h i).resolve_left (h1 (i + 1) (by omega))
  have hex : ∃ m, ∃ i ≥ n, N - (T i).bools.num = m := ⟨_, n, le_refl _, rfl⟩
  classical
  obtain ⟨i, hi, hmin⟩ := Nat.find_spec hex
  have hmax : ∀ j ≥ n, (T j).bools.num ≤ (T i).bools.num := by
    intro j hj
    have := Nat.find_min' hex ⟨j, hj, rfl⟩
    have := h2 i
    have := h2 j
    omega
  have hmono : ∀ k, (T i).bools.num ≤ (T (i + k)).bools.num := by
    intro k
    induction k with
    | zero => exact le_refl _
    | succ k ih =>
      obtain ⟨t, g1, g2⟩ := h3 (i + k) (by omega)
      have := g1.bools
      have := g2.bools
      show _ ≤ (T (i + k + 1)).bools.num
      omega
  have := run_bound (T := fun k => T (i + k))
    (k := (2 * ((T i).bools.num + (T i).rats.num + 1)) ^ ((T i).bools.num + (T i).rats.num + 1))
    (fun k _ => h3 (i + k) (by omega)) (le_antisymm (hmax _ (by omega)) (hmono _))
  exact absurd this (lt_irrefl _)

end Qf

namespace Ufl
open Spec BS Check TermTable Internalizer
open Progress
open Qf (CoreQ TheoryQ BoolOk BoolInv DecOk Up fwd_propagates fwd_lra fwd_frame)
variable {E : Env} {H : TermHash} {I : Interp} {A : List Clause} {b : Bool} {O : Type} {W : QOrder O}

theorem fwd_uf (hO : Ok H E) {stg : Yaga.Stage} {d : Bool} {s : BS} {la la' : LA Nat} {f : FS}
    (h2 : Inv E I A true stg d ⟨⟨s, la⟩, f⟩) (h1 : stg ≠ .conflict)
    (hp : la.propagate E.cfg.hv E.cfg.hc E.op = (la', [])) {u : UF Nat} {cs : List Clause}
    (hu : UF.propagate E.cfg E.s (view E.st la' f) = some (u, cs)) : Fwd s.t (absorb la' u).trail := by
  obtain ⟨w, g1, g2, g3⟩ := lra_frame h2.core.reach h1 hp
  have k := inv_lra hO h2 g1 g2 g3
  obtain ⟨-, -, ⟨stg2, hst, u3, u4⟩, -⟩ := uf_call (I := I) (A := A) hO g1
    (by rw [if_neg (by simp)]; split <;> simp) k.uf hu
  exact (fwd_lra h2.core hp).trans (fwd_frame u4)

theorem fwd_prop (hO : Ok H E) {x x' : US} {cs : List Clause} (hp : UProp E x cs x') :
    ∀ {b : Bool} {stg : Yaga.Stage} {d : Bool}, Inv E I A b stg d x → stg ≠ .conflict → Fwd x.q.s.t x'.q.s.t := by
  induction hp with
  | @boolConflict x s c h =>
    intro b stg d hI hs
    obtain ⟨w, hg⟩ := hI.core.reach.good
    exact fwd_propagates (hI.core.good _ hg.keep.base.inv (LinStore.Kept.refl _)) h
  | @lraConflict x s la cs h hp hne =>
    intro b stg d hI hs
    obtain ⟨w, hg⟩ := hI.core.reach.good
    obtain ⟨stg', h1, h2, _⟩ := inv_bool hO hI hs h
    exact (fwd_propagates (hI.core.good _ hg.keep.base.inv (LinStore.Kept.refl _)) h).trans (fwd_lra h2.core hp)
  | @ufConflict x s la u cs h hp hu hne =>
    intro b stg d hI hs
    obtain ⟨w, hg⟩ := hI.core.reach.good
    obtain ⟨stg', h1, h2, _⟩ := inv_bool hO hI hs h
    exact (fwd_propagates (hI.core.good _ hg.keep.base.inv (LinStore.Kept.refl _)) h).trans (fwd_uf hO h2 h1 hp hu)
  | @done x s la u h hp hu hz =>
    intro b stg d hI hs
    obtain ⟨w, hg⟩ := hI.core.reach.good
    obtain ⟨stg', h1, h2, _⟩ := inv_bool hO hI hs h
    exact (fwd_propagates (hI.core.good _ hg.keep.base.inv (LinStore.Kept.refl _)) h).trans (fwd_uf hO h2 h1 hp hu)
  | @again x x' s la u cs h hp hu hz hr ih =>
    intro b stg d hI hs
    obtain ⟨w0, hg⟩ := hI.core.reach.good
    obtain ⟨stg', h1, h2, _⟩ := inv_bool hO hI hs h
    have hd' := (fwd_propagates (hI.core.good _ hg.keep.base.inv (LinStore.Kept.refl _)) h).trans (fwd_uf hO h2 h1 hp hu)
    obtain ⟨w, g1, g2, g3⟩ := lra_frame h2.core.reach h1 hp
    have k := inv_lra hO h2 g1 g2 g3
    obtain ⟨u1, u2, -, -⟩ := uf_call (I := I) (A := A) hO g1
      (by rw [if_neg (by simp)]; split <;> simp) k.uf hu
    have ea := u2 rfl
    rw [ea] at u1 ih hd'
    exact hd'.trans (ih (⟨k.core, k.num, u1⟩ : Inv E I A true _ _ ⟨⟨Qf.follow s la, la⟩, .of u⟩)
      (by rw [if_neg (by simp)]; split <;> simp))

/-- One iteration: a restart, or propagation followed by a step that increases the measure. -/
theorem iter_up (hO : Ok H E) {stg : Yaga.Stage} {d : Bool} {c c' : UC O} (h : Inv E I A b stg d c.u)
    (hs : stg ≠ .conflict) (hd : DecOk c.u.q.s.t) (hB : BoolInv A c.u.q.s) (hP : PicksFree E W c)
    (hi : Iter E W c (.run c')) :
    (∃ cs x ls, cs ≠ [] ∧ UProp E c.u cs x ∧ c'.u = ⟨Qf.restart x.q ls c.old, x.f.back 0⟩) ∨ ∃ t, Fwd c.u.q.s.t t ∧ Up t c'.u.q.s.t := by
  cases hi with
  | @restart cs x ls lvl o hp hne h0 hl he => exact Or.inl ⟨cs, x, ls, hne, hp, rfl⟩
  | @uip cs x ls L o hp hne h0 hl he hsp =>
    obtain ⟨stg', d', h1, _, h2, h3⟩ := inv_prop hO hp h hs
    have hB' := h3 hB
    rw [if_neg hne] at hB'
    exact Or.inr ⟨_, fwd_prop hO hp h hs, Qf.up_uip h1.core (dec_prop hO hp h hs hd) hB' hne h2 h0 hl hsp⟩
  | @split cs x ls L o c0 y hp hne h0 hl he hc0 hsp hx hu =>
    obtain ⟨stg', d', h1, _, h2, h3⟩ := inv_prop hO hp h hs
    have hB' := h3 hB
    rw [if_neg hne] at hB'
    exact Or.inr ⟨_, fwd_prop hO hp h hs, Qf.up_split h1.core (dec_prop hO hp h hs hd) hB' hne h2 hl hc0 hsp hx hu⟩
  | @decideBool x o la0 n hp hpk =>
    obtain ⟨stg', d', h1, h4, _, _⟩ := inv_prop hO hp h hs
    obtain ⟨g1, g2⟩ := hP _ _ _ _ hp hpk
    rw [h1.core.trail] at g1 g2
    exact Or.inr ⟨_, fwd_prop hO hp h hs, Qf.up_decideBool h1.core g1 g2⟩
  | @decideRat x o la0 n fuel la hp hpk hde =>
    obtain ⟨stg', d', h1, h4, _, _⟩ := inv_prop hO hp h hs
    obtain ⟨rfl, rfl⟩ := h4 rfl
    obtain ⟨g1, g2⟩ := hP _ _ _ _ hp hpk
    rw [h1.core.trail] at g1 g2
    exact Or.inr ⟨_, fwd_prop hO hp h hs, Qf.up_decideRat (Qf.core_queried h1.core (W.queried hpk)) g1 g2 hde⟩

end Ufl
end Yaga

import Verif.Proofs.EncloseArith
import Verif.Proofs.LimitSem
/-! # Rounding errors in `limit` at points where the expression has a value -/

namespace SymRust
open Expr LimitExpression
variable {F : Type}

section
variable [FloatOps F] {R : Rounding F}
open Rounding

/-- The answer lies in `S`. -/
def MeansC (R : Rounding F) (V : Ranges) (S : Set ℝ) : LimitExpression F → Prop
  | .infinitesimal => (0 : ℝ) ∈ S
  | .normal c => R.Cov V c S ∧ R.ClearC Set.univ c ∧ WF SmartNum.Valid c
  | _ => False

variable {V : Ranges} {S S₁ S₂ T : Set ℝ} {a b z : LimitExpression F}

theorem MeansC.mono (h : MeansC R V S₁ a) (hs : S₁ ⊆ S) : MeansC R V S a := by
  cases a with
  | infinitesimal => exact hs h
  | normal c => exact ⟨h.1.mono hs, h.2⟩
  | _ => exact h.elim

theorem MeansC.nonempty (h : MeansC R V S a) (hV : V.envs.Nonempty) : S.Nonempty := by
  cases a with
  | infinitesimal => exact ⟨0, h⟩
  | normal c => exact h.1.nonempty hV
  | _ => exact h.elim

theorem finish_meansC (hV : V.envs.Nonempty) (ha : MeansC R V S a) (h : finish .strict a = .ok z) :
    MeansC R V S z := by
  cases a with
  | infinitesimal => cases h; exact ha
  | normal c =>
    obtain ⟨h1, h2, h3⟩ := ha
    simp only [finish, LOut.bind_eq_ok, LOut.ofRes_eq_ok] at h
    obtain ⟨c', hc, h⟩ := h
    cases h
    have hg := agg_of_numAggregate h3.tree hc
    exact ⟨agg_cov hg h3 (h2.ruleSafe h3) hV h1, hg.clearC h3 h2, hg.wf (numClosed_valid _) h3⟩
  | _ => exact ha.elim

theorem add_meansC (ha : MeansC R V S₁ a) (hb : MeansC R V S₂ b)
    (hS : ∀ x ∈ S₁, ∀ y ∈ S₂, R.blur (x + y) ⊆ S ∧ |x + y| ≤ R.big) :
    ∃ z, a.add b = some z ∧ MeansC R V S z := by
  cases a <;> cases b <;> try exact ha.elim
  all_goals try exact hb.elim
  all_goals refine ⟨_, rfl, ?_⟩
  · have := (hS _ ha _ hb).1 (mem_blur _)
    simpa [MeansC] using this
  · exact MeansC.mono hb fun y hy => by simpa using (hS _ ha _ hy).1 (mem_blur _)
  · exact MeansC.mono ha fun y hy => by simpa using (hS _ hy _ hb).1 (mem_blur _)
  · exact ⟨cov_add.2 ⟨_, _, ha.1, hb.1, hS⟩, clearC_add.2 ⟨ha.2.1, hb.2.1⟩, .add _ _ ha.2.2 hb.2.2⟩

theorem mul_meansC (hV : V.envs.Nonempty) (ha : MeansC R V S₁ a) (hb : MeansC R V S₂ b)
    (hS : ∀ x ∈ S₁, ∀ y ∈ S₂, R.blur (x * y) ⊆ S ∧ |x * y| ≤ R.big) :
    ∃ z, a.mul b = some z ∧ MeansC R V S z := by
  obtain ⟨u, hu⟩ := ha.nonempty hV
  obtain ⟨w, hw⟩ := hb.nonempty hV
  cases a <;> cases b <;> try exact ha.elim
  all_goals try exact hb.elim
  all_goals refine ⟨_, rfl, ?_⟩
  · have := (hS _ ha _ hb).1 (mem_blur _); simpa [MeansC] using this
  · have := (hS _ ha _ hw).1 (mem_blur _); simpa [MeansC] using this
  · have := (hS _ hu _ hb).1 (mem_blur _); simpa [MeansC] using this
  · exact ⟨cov_mul.2 ⟨_, _, ha.1, hb.1, hS⟩, clearC_mul.2 ⟨ha.2.1, hb.2.1⟩, .mul _ _ ha.2.2 hb.2.2⟩

theorem isZero_cov {c : Expr F} (hc : WF SmartNum.Valid c) (h : c.isZero = true) (hr : R.Cov V c S) :
    (0 : ℝ) ∈ S := by
  obtain ⟨n, hv, rfl⟩ := hc.num_of_isNum (isZero_isNum h)
  rw [isZero_ofNum] at h
  have := (cov_num.1 hr).exact hv (hv.zero_iff.1 h)
  simpa using this

theorem div_meansC (hV : V.envs.Nonempty) (ha : MeansC R V S₁ a) (hb : MeansC R V S₂ b)
    (hS : ∀ x ∈ S₁, ∀ y ∈ S₂, y ≠ 0 ∧ R.blur (x / y) ⊆ S ∧ |x / y| ≤ R.big) :
    ∃ z, a.div b = some z ∧ MeansC R V S z := by
  obtain ⟨u, hu⟩ := ha.nonempty hV
  obtain ⟨w, hw⟩ := hb.nonempty hV
  cases b with
  | infinitesimal => exact absurd rfl (hS _ hu _ hb).1
  | normal d =>
    have hz : d.isZero = false := by
      by_contra hc
      exact (hS _ hu _ (isZero_cov hb.2.2 (by simpa using hc) hb.1)).1 rfl
    cases a with
    | infinitesimal =>
      refine ⟨.infinitesimal, by simp [LimitExpression.div, hz], ?_⟩
      have := (hS _ ha _ hw).2.1 (mem_blur _)
      simpa [MeansC] using this
    | normal c =>
      exact ⟨_, rfl, cov_div.2 ⟨_, _, ha.1, hb.1, hS⟩, clearC_div.2 ⟨ha.2.1, hb.2.1⟩, .div _ _ ha.2.2 hb.2.2⟩
    | _ => exact ha.elim
  | _ => exact hb.elim

theorem substLimit_meansC (hV : V.envs.Nonempty) {x : Variable} {pt e : Expr F} (hpt : R.Cov V pt T)
    (wp : WF SmartNum.Valid pt) (sp : R.ClearC Set.univ pt) (he : WF SmartNum.Valid e)
    (hs : R.ClearC (R.AtC x pt) e) (hl : LnOK x pt e)
    (hr : R.Cov (V.set x T) e S) (h : substLimit .strict e x pt = .ok z) : MeansC R V S z := by
  rw [substLimit_eq] at h
  simp only [LOut.bind_eq_ok, LOut.ofRes_eq_ok] at h
  obtain ⟨c, hc, h⟩ := h
  have wr := he.replace wp x
  have sr := hs.replace he.tree sp hl
  have hg := agg_of_numAggregate wr.tree hc
  have hv := agg_cov hg wr (sr.ruleSafe wr) hV (hr.replace he.tree hpt)
  have wc := hg.wf (numClosed_valid _) wr
  split_ifs at h with h0
  · cases h; exact isZero_cov wc h0 hv
  · cases h; exact ⟨hv, hg.clearC wr sr, wc⟩

theorem env_set_mem {env : Env} (hV : env ∈ V.envs) {p : ℝ} (hp : p ∈ T) (x : Variable) :
    env.set x p ∈ (V.set x T).envs := fun y => by
  by_cases hy : y = x
  · subst hy; simpa [ranges_set_same] using hp
  · rw [ranges_set_ne hy]; simpa [Env.set, hy] using hV y

/-- At a point where every rounded evaluation has a value, a successful limit lies in the enclosure. -/
theorem limit_meansC {x : Variable} {pt : Expr F} {k : UInt64} (hpt : R.Cov V pt T)
    (wp : WF SmartNum.Valid pt) (sp : R.ClearC Set.univ pt) {env : Env} (hV : env ∈ V.envs) {p : ℝ}
    (hp : denote R.real? env pt = some p) {n : Nat} {e : Expr F}
    (he : WF SmartNum.Valid e) (hs : R.ClearC (R.AtC x pt) e) (hl : LnOK x pt e)
    (hr : R.Cov (V.set x T) e S)
    (ht : pt.isZero = true → Everywhere (fun s => ∀ a : Expr F, s = a.sin → SinZeroAt R.real? (env.set x p) a) e)
    (h : limit .strict x pt k n e = .ok z) : MeansC R V S z := by
  have hne : V.envs.Nonempty := ⟨env, hV⟩
  have hpT : p ∈ T := by
    obtain ⟨v, h1, h2⟩ := hpt.value hV
    rw [hp] at h2; cases h2; exact h1
  have hpe := env_set_mem hV hpT x
  induction n generalizing e S z with
  | zero => cases h
  | succ n ih =>
    cases he with
    | num v hv =>
      rw [limit_ofNum] at h; cases h
      exact ⟨cov_num.2 (cov_num.1 hr), clearC_ofNum _, .num _ hv⟩
    | var v =>
      rw [limit_ofVar, LOut.bind_eq_ok] at h
      obtain ⟨a, h1, h⟩ := h
      refine finish_meansC hne ?_ h
      have hr := cov_var.1 hr
      split_ifs at h1 with hv hz
      · cases h1
        subst hv
        rw [ranges_set_same] at hr
        exact hr (isZero_cov wp hz hpt)
      · cases h1
        subst hv
        rw [ranges_set_same] at hr
        exact ⟨hpt.mono hr, sp, wp⟩
      · cases h1
        rw [ranges_set_ne hv] at hr
        exact ⟨cov_var.2 hr, clearC_ofVar _, .var _⟩
    | neg a _ => rw [limit_neg] at h; cases h
    | exp a _ => cases h
    | ln a _ => cases h
    | pow a b _ _ => cases h
    | sub a b ha hb =>
      rw [limit_sub, LOut.bind_eq_ok] at h
      obtain ⟨w, h1, h⟩ := h
      exfalso
      cases n with
      | zero => cases h1
      | succ n =>
        rw [limit_add] at h1
        simp only [addBody, LOut.bind_eq_ok] at h1
        obtain ⟨-, ⟨B, hB, -⟩, -⟩ := h1
        cases n with
        | zero => cases hB
        | succ n => rw [limit_neg] at hB; cases hB
    | sin a ha =>
      rw [limit_sin, LOut.bind_eq_ok] at h
      obtain ⟨w, h1, h⟩ := h
      refine finish_meansC hne ?_ h
      split_ifs at h1 with h0
      · cases h1
        obtain ⟨w, hw, hs⟩ := (everywhere_sin.1 (ht h0)).1 a rfl
        obtain ⟨v, hv, hv'⟩ := hr.value hpe
        obtain ⟨u, hu, h⟩ := denote_sin.1 hv'
        rw [hu] at hw; cases hw
        show (0 : ℝ) ∈ S
        rw [← hs, h]; exact hv
      · exact substLimit_meansC hne hpt wp sp (.sin _ ha) hs hl hr h1
    | cos a ha =>
      rw [limit_cos, LOut.bind_eq_ok] at h
      obtain ⟨w, h1, h⟩ := h
      exact finish_meansC hne (substLimit_meansC hne hpt wp sp (.cos _ ha) hs hl hr h1) h
    | div a b ha hb =>
      rw [limit_div, LOut.bind_eq_ok] at h
      obtain ⟨w, h1, h⟩ := h
      refine finish_meansC hne ?_ h
      obtain ⟨S₁, S₂, hu, hv, hS⟩ := cov_div.1 hr
      simp only [divLoop, LOut.bind_eq_ok] at h1
      obtain ⟨A, hA, B, hB, h1⟩ := h1
      have ma := ih ha (clearC_div.1 hs).1 (powAll_div.1 hl).1 hu (fun h0 => (everywhere_div.1 (ht h0)).2.1) hA
      have mb := ih hb (clearC_div.1 hs).2 (powAll_div.1 hl).2 hv (fun h0 => (everywhere_div.1 (ht h0)).2.2) hB
      obtain ⟨z', hz, hm⟩ := div_meansC hne ma mb hS
      rw [hz] at h1; cases h1
      exact hm
    | add a b ha hb =>
      rw [limit_add, LOut.bind_eq_ok] at h
      obtain ⟨w, h1, h⟩ := h
      refine finish_meansC hne ?_ h
      obtain ⟨S₁, S₂, hu, hv, hS⟩ := cov_add.1 hr
      simp only [addBody, LOut.bind_eq_ok] at h1
      obtain ⟨B, hB, A, hA, h1⟩ := h1
      have ma := ih ha (clearC_add.1 hs).1 (powAll_add.1 hl).1 hu (fun h0 => (everywhere_add.1 (ht h0)).2.1) hA
      have mb := ih hb (clearC_add.1 hs).2 (powAll_add.1 hl).2 hv (fun h0 => (everywhere_add.1 (ht h0)).2.2) hB
      obtain ⟨z', hz, hm⟩ := add_meansC ma mb hS
      rw [hz] at h1; cases h1
      exact hm
    | mul a b ha hb =>
      rw [limit_mul, LOut.bind_eq_ok] at h
      obtain ⟨w, h1, h⟩ := h
      refine finish_meansC hne ?_ h
      obtain ⟨S₁, S₂, hu, hv, hS⟩ := cov_mul.1 hr
      simp only [mulBody, LOut.bind_eq_ok] at h1
      obtain ⟨B, hB, A, hA, h1⟩ := h1
      have ma := ih ha (clearC_mul.1 hs).1 (powAll_mul.1 hl).1 hu (fun h0 => (everywhere_mul.1 (ht h0)).2.1) hA
      have mb := ih hb (clearC_mul.1 hs).2 (powAll_mul.1 hl).2 hv (fun h0 => (everywhere_mul.1 (ht h0)).2.2) hB
      obtain ⟨z', hz, hm⟩ := mul_meansC hne ma mb hS
      rw [hz] at h1; cases h1
      exact hm

end

/-! ### Limits of arithmetic expressions at numbers are numbers -/
section
variable [FloatOps F] {m : Mode} {x : Variable} {k : UInt64}

/-- Arithmetic in `x` only. -/
def In (x : Variable) (e : Expr F) : Prop := Tree e ∧ NoFn e ∧ ∀ y, Occurs y e → y = x
def Closed (e : Expr F) : Prop := Tree e ∧ NoFn e ∧ ∀ y, ¬ Occurs y e

def LimClosed : LimitExpression F → Prop
  | .normal c => Closed c
  | _ => True
def LimNumber : LimitExpression F → Prop
  | .normal c => ∃ n, c = ofNum n
  | _ => True

theorem closed_num (n : SmartNum F) : Closed (ofNum n) := ⟨.num _ trivial, noFn_ofNum n, fun y hy => by simp at hy⟩
theorem LimNumber.closed {z : LimitExpression F} (h : LimNumber z) : LimClosed z := by
  cases z with
  | normal c => obtain ⟨n, rfl⟩ := h; exact closed_num n
  | _ => trivial

section
variable {a b : Expr F}
theorem in_add : In x (a.add b) ↔ In x a ∧ In x b := by
  simp only [In, Tree, WF.add_iff, noFn_add, occurs_add]
  exact ⟨fun ⟨⟨a, b⟩, ⟨c, d⟩, e⟩ => ⟨⟨a, c, fun y h => e y (.inl h)⟩, b, d, fun y h => e y (.inr h)⟩,
    fun ⟨⟨a, c, e⟩, b, d, f⟩ => ⟨⟨a, b⟩, ⟨c, d⟩, fun y h => h.elim (e y) (f y)⟩⟩
theorem in_mul : In x (a.mul b) ↔ In x a ∧ In x b := by
  simp only [In, Tree, WF.mul_iff, noFn_mul, occurs_mul]
  exact ⟨fun ⟨⟨a, b⟩, ⟨c, d⟩, e⟩ => ⟨⟨a, c, fun y h => e y (.inl h)⟩, b, d, fun y h => e y (.inr h)⟩,
    fun ⟨⟨a, c, e⟩, b, d, f⟩ => ⟨⟨a, b⟩, ⟨c, d⟩, fun y h => h.elim (e y) (f y)⟩⟩
theorem in_div : In x (a.div b) ↔ In x a ∧ In x b := by
  simp only [In, Tree, WF.div_iff, noFn_div, occurs_div]
  exact ⟨fun ⟨⟨a, b⟩, ⟨c, d⟩, e⟩ => ⟨⟨a, c, fun y h => e y (.inl h)⟩, b, d, fun y h => e y (.inr h)⟩,
    fun ⟨⟨a, c, e⟩, b, d, f⟩ => ⟨⟨a, b⟩, ⟨c, d⟩, fun y h => h.elim (e y) (f y)⟩⟩
theorem closed_add (ha : Closed a) (hb : Closed b) : Closed (a.add b) :=
  ⟨.add _ _ ha.1 hb.1, noFn_add.2 ⟨ha.2.1, hb.2.1⟩, fun y h => ((occurs_add _ _ _).1 h).elim (ha.2.2 y) (hb.2.2 y)⟩
theorem closed_mul (ha : Closed a) (hb : Closed b) : Closed (a.mul b) :=
  ⟨.mul _ _ ha.1 hb.1, noFn_mul.2 ⟨ha.2.1, hb.2.1⟩, fun y h => ((occurs_mul _ _ _).1 h).elim (ha.2.2 y) (hb.2.2 y)⟩
theorem closed_div (ha : Closed a) (hb : Closed b) : Closed (a.div b) :=
  ⟨.div _ _ ha.1 hb.1, noFn_div.2 ⟨ha.2.1, hb.2.1⟩, fun y h => ((occurs_div _ _ _).1 h).elim (ha.2.2 y) (hb.2.2 y)⟩
theorem in_one : In x (Expr.one : Expr F) := ⟨.num _ trivial, noFn_ofNum _, fun y h => by simp [Expr.one] at h⟩
end

section
variable {a b z : LimitExpression F} (ha : LimClosed a) (hb : LimClosed b)
include ha hb
theorem LimClosed.add (h : a.add b = some z) : LimClosed z := by
  cases a <;> cases b <;> simp only [LimitExpression.add] at h <;> cases h <;> first | trivial | exact ha | exact hb | exact closed_add ha hb
theorem LimClosed.mul (h : a.mul b = some z) : LimClosed z := by
  cases a <;> cases b <;> simp only [LimitExpression.mul] at h <;> (try split_ifs at h) <;> cases h <;> first | trivial | exact ha | exact hb | exact closed_mul ha hb
theorem LimClosed.div (h : a.div b = some z) : LimClosed z := by
  cases a <;> cases b <;> simp only [LimitExpression.div] at h <;> (try split_ifs at h) <;> cases h <;> first | trivial | exact ha | exact hb | exact closed_div ha hb
end

theorem finish_number {a z : LimitExpression F} (ha : LimClosed a) (h : finish m a = .ok z) : LimNumber z := by
  cases a with
  | normal c =>
    simp only [finish, LOut.bind_eq_ok, LOut.ofRes_eq_ok] at h
    obtain ⟨c', hc, h⟩ := h
    cases h
    exact (agg_of_numAggregate ha.1 hc).number ha.2.1 ha.2.2
  | _ => cases h; trivial

theorem divLoop_number {rec : LimitFn F} (hr : ∀ e z, In x e → rec e = .ok z → LimNumber z) (j : Nat) {l r : Expr F}
    (hl : In x l) (hr' : In x r) {z : LimitExpression F} (h : divLoop m rec x j l r = .ok z) : LimClosed z := by
  induction j generalizing l r with
  | zero => cases h
  | succ j ih =>
    simp only [divLoop, LOut.bind_eq_ok] at h
    obtain ⟨a, ha, b, hb, h⟩ := h
    cases hd : a.div b with
    | some w =>
      rw [hd] at h; cases h
      exact (hr _ _ hl ha).closed.div (hr _ _ hr' hb).closed hd
    | none =>
      rw [hd] at h
      simp only [LOut.bind_eq_ok, LOut.ofOut_eq_ok] at h
      obtain ⟨l', h1, r', h2, h⟩ := h
      have d : ∀ {e e' : Expr F}, In x e → e.derivative m x = .ok e' → In x e' := fun {e e'} he h => by
        have hd := der_of_derivative he.1 h
        exact ⟨hd.wf (numClosed_true m) he.1, hd.noFn he.2.1, fun y hy => he.2.2 y (hd.occurs hy)⟩
      exact ih (d hl h1) (d hr' h2) h

theorem limit_number {v : SmartNum F} {n : Nat} {e : Expr F} (he : In x e) {z : LimitExpression F}
    (h : limit m x (ofNum v) k n e = .ok z) : LimNumber z := by
  induction n generalizing e z with
  | zero => cases h
  | succ n ih =>
    obtain ⟨wf, nf, oc⟩ := he
    cases wf with
    | num v hv => rw [limit_ofNum] at h; cases h; exact ⟨_, rfl⟩
    | var v =>
      rw [limit_ofVar, LOut.bind_eq_ok] at h
      obtain ⟨a, h1, h⟩ := h
      refine finish_number ?_ h
      split_ifs at h1 with h2 <;> cases h1
      · trivial
      · exact closed_num _
      · exact absurd (oc v ((occurs_ofVar _ _).2 rfl)) h2
    | neg a _ => rw [limit_neg] at h; cases h
    | exp a _ => cases h
    | ln a _ => cases h
    | pow a b _ _ => cases h
    | sin a ha => exact (noFn_sin.1 nf).elim
    | cos a ha => exact (noFn_cos.1 nf).elim
    | sub a b ha hb =>
      rw [limit_sub, LOut.bind_eq_ok] at h
      obtain ⟨w, h1, h⟩ := h
      have nf := noFn_sub.1 nf
      refine finish_number (ih ⟨.add _ _ ha (.neg _ hb), noFn_add.2 ⟨nf.1, noFn_neg.2 nf.2⟩, fun y hy => oc y ?_⟩ h1).closed h
      rw [occurs_sub]
      exact ((occurs_add _ _ _).1 hy).imp id (occurs_neg _ _).1
    | div a b ha hb =>
      rw [limit_div, LOut.bind_eq_ok] at h
      obtain ⟨w, h1, h⟩ := h
      obtain ⟨ia, ib⟩ := in_div.1 ⟨.div _ _ ha hb, nf, oc⟩
      exact finish_number (divLoop_number (fun e z he hz => ih he hz) _ ia ib h1) h
    | add a b ha hb =>
      rw [limit_add, LOut.bind_eq_ok] at h
      obtain ⟨w, h1, h⟩ := h
      refine finish_number ?_ h
      obtain ⟨ia, ib⟩ := in_add.1 ⟨.add _ _ ha hb, nf, oc⟩
      simp only [addBody, LOut.bind_eq_ok] at h1
      obtain ⟨r, hr, l, hl, h1⟩ := h1
      cases hd : l.add r with
      | some w => rw [hd] at h1; cases h1; exact (ih ia hl).closed.add (ih ib hr).closed hd
      | none => rw [hd] at h1; exact (ih (in_div.2 ⟨in_add.2 ⟨in_div.2 ⟨ia, ib⟩, in_one⟩, in_div.2 ⟨in_one, ib⟩⟩) h1).closed
    | mul a b ha hb =>
      rw [limit_mul, LOut.bind_eq_ok] at h
      obtain ⟨w, h1, h⟩ := h
      refine finish_number ?_ h
      obtain ⟨ia, ib⟩ := in_mul.1 ⟨.mul _ _ ha hb, nf, oc⟩
      simp only [mulBody, LOut.bind_eq_ok] at h1
      obtain ⟨r, hr, l, hl, h1⟩ := h1
      cases hd : l.mul r with
      | some w => rw [hd] at h1; cases h1; exact (ih ia hl).closed.mul (ih ib hr).closed hd
      | none =>
        rw [hd] at h1; simp only at h1
        split_ifs at h1
        · exact (ih (in_div.2 ⟨ib, in_div.2 ⟨in_one, ia⟩⟩) h1).closed
        · exact (ih (in_div.2 ⟨ia, in_div.2 ⟨in_one, ib⟩⟩) h1).closed
end

end SymRust
